import Verif.Spec.Depends
import Verif.Props.Search
/-!
# C162: the command that lists the dependents of a package
-/
namespace Rez.Props
open Rez Rez.Depends Rez.Depends.Spec Rez.Repository Rez.PackageOrder Rez.Spec.Search Rez.Spec.Repository Rez.Spec

namespace DependsLemmas

/-- An edge found by the search: the dependent, what it depends on, the depth. -/
abbrev Edge := Str × Str × Nat

def treeOf (edges : List Edge) : RevTree := edges.foldl (fun t e => t.add e.1 e.2.1 e.2.2) ⟨[], []⟩

theorem treeOf_snoc (edges : List Edge) (e : Edge) : treeOf (edges ++ [e]) = (treeOf edges).add e.1 e.2.1 e.2.2 := by
  simp [treeOf]

theorem treeOf_append (edges : List Edge) (new : List Str) (p : Str) (k : Nat) :
    treeOf (edges ++ new.map fun d => (d, p, k)) = new.foldl (fun t d => t.add d p k) (treeOf edges) := by
  simp [treeOf, List.foldl_append, List.foldl_map]

theorem padTo_get (l : List (List Str)) (d k : Nat) : (padTo l d)[k]?.getD [] = l[k]?.getD [] := by
  unfold padTo
  rw [List.getElem?_append]
  split
  · rfl
  · rename_i h
    rw [List.getElem?_replicate, List.getElem?_eq_none (by omega)]
    split <;> rfl

theorem padTo_length (l : List (List Str)) (d : Nat) : (padTo l d).length = max l.length (d + 1) := by
  simp [padTo]
  omega

theorem add_levels (t : RevTree) (x p : Str) (d k : Nat) :
    (t.add x p d).levels[k]?.getD [] = if k = d then pushNew (t.levels[k]?.getD []) x else t.levels[k]?.getD [] := by
  simp only [RevTree.add, List.getElem?_modify]
  by_cases h : d = k
  · subst h
    simp only [if_true]
    have hl : d < (padTo t.levels d).length := by rw [padTo_length]; omega
    have := padTo_get t.levels d d
    rw [List.getElem?_eq_getElem hl] at this ⊢
    simp only [Option.getD_some] at this
    simp [this]
  · rw [if_neg (Ne.symm h)]
    simp [h, padTo_get]

theorem add_length (t : RevTree) (x p : Str) (d : Nat) : (t.add x p d).levels.length = max t.levels.length (d + 1) := by
  simp [RevTree.add, padTo_length]

theorem levels_of (edges : List Edge) (hn : (edges.map (·.1)).Nodup) (k : Nat) :
    (treeOf edges).levels[k]?.getD [] = (edges.filter (·.2.2 = k)).map (·.1) := by
  induction edges using List.reverseRecOn with
  | nil => simp [treeOf]
  | append_singleton es e ih =>
    rw [List.map_append, List.nodup_append] at hn
    have ih := ih hn.1
    rw [treeOf_snoc, add_levels, ih, List.filter_append, List.map_append]
    by_cases h : k = e.2.2
    · rw [if_pos h]
      have hnot : e.1 ∉ (es.filter (·.2.2 = k)).map (·.1) := by
        intro hm
        obtain ⟨e', he', hx⟩ := List.mem_map.1 hm
        exact hn.2.2 e'.1 (List.mem_map.2 ⟨e', (List.mem_filter.1 he').1, rfl⟩) e.1 (by simp) hx
      simp [pushNew, hnot, h]
      rw [← h]; simpa using hnot
    · rw [if_neg h]
      simp [Ne.symm h]

theorem length_of (edges : List Edge) :
    (edges = [] → (treeOf edges).levels = []) ∧ (∀ e ∈ edges, e.2.2 < (treeOf edges).levels.length) ∧
    ((treeOf edges).levels ≠ [] → ∃ e ∈ edges, e.2.2 + 1 = (treeOf edges).levels.length) := by
  induction edges using List.reverseRecOn with
  | nil => simp [treeOf]
  | append_singleton es e ih =>
    refine ⟨by simp, fun e' he' => ?_, fun _ => ?_⟩
    · rw [treeOf_snoc, add_length]
      rcases List.mem_append.1 he' with h | h
      · have := ih.2.1 e' h; omega
      · rw [List.mem_singleton.1 h]; omega
    · rw [treeOf_snoc, add_length]
      by_cases hle : (treeOf es).levels.length ≤ e.2.2 + 1
      · exact ⟨e, by simp, by omega⟩
      · obtain ⟨e', he', hx⟩ := ih.2.2 (by intro h0; rw [h0] at hle; simp at hle)
        exact ⟨e', by simp [he'], by omega⟩

theorem nodes_of (edges : List Edge) (hn : (edges.map (·.1)).Nodup) (p : Str) :
    (mget (treeOf edges).nodes p).getD [] = (edges.filter (·.2.1 = p)).map (·.1) := by
  induction edges using List.reverseRecOn with
  | nil => simp [treeOf, mget]
  | append_singleton es e ih =>
    rw [List.map_append, List.nodup_append] at hn
    have ih := ih hn.1
    rw [treeOf_snoc, List.filter_append, List.map_append, RevTree.add, mget_mset]
    by_cases h : p = e.2.1
    · rw [if_pos h, ← h, ih]
      have hnot : e.1 ∉ (es.filter (·.2.1 = p)).map (·.1) := by
        intro hm
        obtain ⟨e', he', hx⟩ := List.mem_map.1 hm
        exact hn.2.2 e'.1 (List.mem_map.2 ⟨e', (List.mem_filter.1 he').1, rfl⟩) e.1 (by simp) hx
      simp only [Option.getD_some, pushNew]
      rw [if_neg (by simpa using hnot)]
      simp [h]
    · rw [if_neg h, ih]
      simp [Ne.symm h]

theorem nodup_keys (edges : List Edge) : (mkeys (treeOf edges).nodes).Nodup := by
  induction edges using List.reverseRecOn with
  | nil => simp [treeOf, mkeys]
  | append_singleton es e ih => rw [treeOf_snoc]; exact nodup_mset ih _ _

theorem visits (current : Str) (k : Nat) (l : List Str) (s : Seen) (hn : s.visited.Nodup) :
    ∃ new, (l.foldl (visit current k) s).queue = s.queue ++ new.map (fun d => (d, k + 1)) ∧
      (l.foldl (visit current k) s).visited = s.visited ++ new ∧
      (l.foldl (visit current k) s).tree = new.foldl (fun t d => t.add d current (k + 1)) s.tree ∧
      (∀ d ∈ new, d ∈ l) ∧ (s.visited ++ new).Nodup ∧ ∀ d ∈ l, d ∈ s.visited ++ new := by
  induction l generalizing s with
  | nil => exact ⟨[], by simp, by simp, rfl, by simp, by simpa using hn, by simp⟩
  | cons d l ih =>
    rw [List.foldl_cons]
    by_cases h : d ∈ s.visited
    · have hv : visit current k s d = s := by simp [visit, h]
      rw [hv]
      obtain ⟨new, h1, h2, h3, h4, h5, h6⟩ := ih s hn
      refine ⟨new, h1, h2, h3, fun x hx => List.mem_cons_of_mem _ (h4 x hx), h5, fun x hx => ?_⟩
      rcases List.mem_cons.1 hx with rfl | hx
      · exact List.mem_append_left _ h
      · exact h6 x hx
    · have hv : visit current k s d = ⟨s.queue ++ [(d, k + 1)], s.visited ++ [d], s.tree.add d current (k + 1)⟩ := by
        simp [visit, h]
      rw [hv]
      obtain ⟨new, h1, h2, h3, h4, h5, h6⟩ := ih ⟨s.queue ++ [(d, k + 1)], s.visited ++ [d], s.tree.add d current (k + 1)⟩
        (by simp [List.nodup_append, hn]; exact fun x hx hxd => h (hxd ▸ hx))
      refine ⟨d :: new, by rw [h1]; simp, by rw [h2]; simp, by rw [h3]; simp, fun x hx => ?_, by simpa using h5, fun x hx => ?_⟩
      · rcases List.mem_cons.1 hx with rfl | hx
        · exact List.mem_cons_self
        · exact List.mem_cons_of_mem _ (h4 x hx)
      · rcases List.mem_cons.1 hx with rfl | hx
        · simp
        · simpa using h6 x hx

/-- The state of the search: `done` are the packages looked at, with their depths. -/
structure Inv (deps : Str → List Str) (limit : Option Nat) (a : Str) (done : List (Str × Nat)) (edges : List Edge)
    (s : Seen) : Prop where
  order : (a, 0) :: edges.map (fun e => (e.1, e.2.2)) = done ++ s.queue
  vis : s.visited = a :: edges.map (·.1)
  nodup : s.visited.Nodup
  tree : s.tree = treeOf edges
  edge : ∀ e ∈ edges, e.1 ∈ deps e.2.1 ∧ ∃ k, e.2.2 = k + 1 ∧ Within limit (k + 1) ∧ (e.2.1, k) ∈ done
  reach : ∀ e ∈ done ++ s.queue, Reach deps a e.2 e.1
  sorted : (done ++ s.queue).Pairwise fun e e' => e.2 ≤ e'.2
  near : ∀ y j rest, s.queue = (y, j) :: rest → ∀ e ∈ done ++ s.queue, e.2 ≤ j + 1
  closed : ∀ e ∈ done, tooDeep limit e.2 = false → ∀ d ∈ deps e.1, ∃ j ≤ e.2 + 1, (d, j) ∈ done ++ s.queue

theorem inv_start (deps : Str → List Str) (limit : Option Nat) (a : Str) :
    Inv deps limit a [] [] ⟨[(a, 0)], [a], ⟨[], []⟩⟩ where
  order := by simp
  vis := by simp
  nodup := by simp
  tree := rfl
  edge := by simp
  reach := by simp [Reach]
  sorted := by simp
  near := by
    intro y j rest h e he
    simp at he
    subst he
    simp
  closed := by simp

theorem inv_skip {deps : Str → List Str} {limit : Option Nat} {a : Str} {done : List (Str × Nat)} {edges : List Edge}
    {s : Seen} {x : Str} {k : Nat} {rest : List (Str × Nat)} (h : Inv deps limit a done edges s)
    (hq : s.queue = (x, k) :: rest) (hd : tooDeep limit k = true) :
    Inv deps limit a (done ++ [(x, k)]) edges { s with queue := rest } := by
  have hl : done ++ [(x, k)] ++ rest = done ++ s.queue := by rw [hq]; simp
  refine ⟨by rw [hl]; exact h.order, h.vis, h.nodup, h.tree, fun e he => ?_, by rw [hl]; exact h.reach,
    by rw [hl]; exact h.sorted, fun y j r hr e he => ?_, fun e he ht d hd' => ?_⟩
  · obtain ⟨h1, k', h2, h3, h4⟩ := h.edge e he
    exact ⟨h1, k', h2, h3, List.mem_append_left _ h4⟩
  · have hle := h.near x k rest hq e (by rw [← hl]; exact he)
    have hs := h.sorted
    rw [hq, List.pairwise_append] at hs
    have : k ≤ j := (List.pairwise_cons.1 hs.2.1).1 (y, j) (by rw [show rest = (y, j) :: r from hr]; simp)
    omega
  · rw [hl]
    rcases List.mem_append.1 he with he | he
    · exact h.closed e he ht d hd'
    · rw [List.mem_singleton.1 he, hd] at ht
      cases ht

theorem inv_step {deps : Str → List Str} {limit : Option Nat} {a : Str} {done : List (Str × Nat)} {edges : List Edge}
    {s : Seen} {x : Str} {k : Nat} {rest : List (Str × Nat)} (h : Inv deps limit a done edges s)
    (hq : s.queue = (x, k) :: rest) (hd : tooDeep limit k = false) :
    ∃ edges', Inv deps limit a (done ++ [(x, k)]) edges' ((deps x).foldl (visit x k) { s with queue := rest }) := by
  obtain ⟨new, h1, h2, h3, h4, h5, h6⟩ := visits x k (deps x) { s with queue := rest } h.nodup
  refine ⟨edges ++ new.map (fun d => (d, x, k + 1)), ?_⟩
  generalize hs' : (deps x).foldl (visit x k) { s with queue := rest } = s' at h1 h2 h3
  simp only at h1 h2 h3 h5 h6
  have hl : done ++ [(x, k)] ++ s'.queue = done ++ s.queue ++ new.map (fun d => (d, k + 1)) := by rw [h1, hq]; simp
  have hmax := h.near x k rest hq
  have hlim : Within limit (k + 1) := by
    intro m hm
    rw [hm] at hd
    simp [tooDeep] at hd
    omega
  have hx : (x, k) ∈ done ++ s.queue := by rw [hq]; simp
  have hmem : ∀ e ∈ new.map (fun d => (d, k + 1)), e.2 = k + 1 ∧ e.1 ∈ deps x := by
    intro e he
    obtain ⟨d, hd', rfl⟩ := List.mem_map.1 he
    exact ⟨rfl, h4 d hd'⟩
  refine ⟨?_, ?_, by rw [h2]; exact h5, ?_, fun e he => ?_, fun e he => ?_, ?_, fun y j r hr e he => ?_,
    fun e he ht d hd' => ?_⟩
  · rw [hl, ← h.order]; simp
  · rw [h2, h.vis]; simp [Function.comp_def]
  · rw [h3, treeOf_append, h.tree]
  · rcases List.mem_append.1 he with he | he
    · obtain ⟨h1, k', h2, h3, h4⟩ := h.edge e he
      exact ⟨h1, k', h2, h3, List.mem_append_left _ h4⟩
    · obtain ⟨d, hd', rfl⟩ := List.mem_map.1 he
      exact ⟨h4 d hd', k, rfl, hlim, by simp⟩
  · rw [hl] at he
    rcases List.mem_append.1 he with he | he
    · exact h.reach e he
    · obtain ⟨ha, hb⟩ := hmem e he
      rw [ha]
      exact ⟨x, h.reach _ hx, hb⟩
  · rw [hl, List.pairwise_append]
    refine ⟨h.sorted, ?_, fun e he e' he' => ?_⟩
    · rw [List.pairwise_map]
      exact List.pairwise_of_forall (fun _ _ => Nat.le_refl _)
    · rw [(hmem e' he').1]
      exact hmax e he
  · rw [hl] at he
    have hk : e.2 ≤ k + 1 := by
      rcases List.mem_append.1 he with he | he
      · exact hmax e he
      · exact Nat.le_of_eq (hmem e he).1
    have : k ≤ j := by
      have hj : (y, j) ∈ rest ++ new.map (fun d => (d, k + 1)) := by rw [← h1, hr]; simp
      rcases List.mem_append.1 hj with hj | hj
      · have hs := h.sorted
        rw [hq, List.pairwise_append] at hs
        exact (List.pairwise_cons.1 hs.2.1).1 _ hj
      · have := (hmem _ hj).1
        simp at this
        omega
    omega
  · rw [hl]
    rcases List.mem_append.1 he with he | he
    · obtain ⟨j, hj, hm⟩ := h.closed e he ht d hd'
      exact ⟨j, hj, List.mem_append_left _ hm⟩
    · rw [List.mem_singleton.1 he] at hd' ⊢
      have := h6 d hd'
      rcases List.mem_append.1 this with hv | hv
      · rw [h.vis] at hv
        have hin : d ∈ ((a, 0) :: edges.map (fun e => (e.1, e.2.2))).map Prod.fst := by
          simpa [Function.comp_def] using hv
        rw [h.order] at hin
        obtain ⟨e', he', rfl⟩ := List.mem_map.1 hin
        exact ⟨e'.2, hmax e' he', List.mem_append_left _ he'⟩
      · exact ⟨k + 1, Nat.le_refl _, List.mem_append_right _ (List.mem_map.2 ⟨d, hv, rfl⟩)⟩

theorem loop_spec {deps : Str → List Str} {limit : Option Nat} {a : Str} (fuel : Nat) {done : List (Str × Nat)}
    {edges : List Edge} {s : Seen} (h : Inv deps limit a done edges s) {t : RevTree} (ht : loop deps limit fuel s = some t) :
    ∃ done' edges' s', Inv deps limit a done' edges' s' ∧ s'.queue = [] ∧ t = s'.tree := by
  induction fuel generalizing done edges s with
  | zero => cases ht
  | succ fuel ih =>
    rw [loop] at ht
    split at ht
    · rename_i hq
      exact ⟨done, edges, s, h, hq, (Option.some.inj ht).symm⟩
    · rename_i x k rest hq
      split at ht
      · rename_i hd
        exact ih (inv_skip h hq hd) ht
      · rename_i hd
        obtain ⟨edges', h'⟩ := inv_step h hq (by simpa using hd)
        exact ih h' ht

theorem loop_ends {deps : Str → List Str} {limit : Option Nat} {a : Str} {all : List Str}
    (hall : ∀ p, ∀ d ∈ deps p, d ∈ all) (fuel : Nat) {done : List (Str × Nat)} {edges : List Edge} {s : Seen}
    (h : Inv deps limit a done edges s) (hf : all.length + 2 ≤ fuel + done.length) :
    ∃ t, loop deps limit fuel s = some t := by
  have hlen : done.length ≤ all.length + 1 := by
    have h1 : s.visited ⊆ a :: all := by
      intro x hx
      rw [h.vis] at hx
      rcases List.mem_cons.1 hx with rfl | hx
      · exact List.mem_cons_self
      · obtain ⟨e, he, rfl⟩ := List.mem_map.1 hx
        exact List.mem_cons_of_mem _ (hall _ _ (h.edge e he).1)
    have h2 := (h.nodup.subperm h1).length_le
    have h3 := congrArg List.length h.order
    have h4 := congrArg List.length h.vis
    simp at h2 h3 h4
    omega
  induction fuel generalizing done edges s with
  | zero => omega
  | succ fuel ih =>
    rw [loop]
    split
    · exact ⟨_, rfl⟩
    · rename_i x k rest hq
      have hbound : ∀ {edges' : List Edge} {s' : Seen}, Inv deps limit a (done ++ [(x, k)]) edges' s' →
          (done ++ [(x, k)]).length ≤ all.length + 1 := by
        intro edges' s' h
        have h1 : s'.visited ⊆ a :: all := by
          intro x hx
          rw [h.vis] at hx
          rcases List.mem_cons.1 hx with rfl | hx
          · exact List.mem_cons_self
          · obtain ⟨e, he, rfl⟩ := List.mem_map.1 hx
            exact List.mem_cons_of_mem _ (hall _ _ (h.edge e he).1)
        have h2 := (h.nodup.subperm h1).length_le
        have h3 := congrArg List.length h.order
        have h4 := congrArg List.length h.vis
        simp at h2 h3 h4 ⊢
        omega
      split
      · rename_i hd
        have hi := inv_skip h hq hd
        exact ih hi (by simp; omega) (hbound hi)
      · rename_i hd
        obtain ⟨edges', hi⟩ := inv_step h hq (by simpa using hd)
        exact ih hi (by simp; omega) (hbound hi)

/-- What the search finds. -/
theorem tree_spec {deps : Str → List Str} {limit : Option Nat} {a : Str} {fuel : Nat} {t : RevTree}
    (ht : tree deps limit a fuel = some t) :
    ∃ edges : List Edge, t = treeOf edges ∧ (edges.map (·.1)).Nodup ∧
      (∀ e ∈ edges, e.1 ∈ deps e.2.1 ∧ ∃ k, e.2.2 = k + 1 ∧ Level deps a k e.2.1) ∧
      ∀ x k, (∃ p, (x, p, k + 1) ∈ edges) ↔ Level deps a (k + 1) x ∧ Within limit (k + 1) := by
  obtain ⟨done, edges, s, h, hq, rfl⟩ := loop_spec fuel (inv_start deps limit a) ht
  have hnames : (done.map Prod.fst).Nodup := by
    have h1 := congrArg (List.map Prod.fst) h.order
    rw [hq, List.append_nil] at h1
    rw [← h1]
    have := h.nodup
    rw [h.vis] at this
    simpa [Function.comp_def] using this
  have horder := h.order
  rw [hq, List.append_nil] at horder
  have hzero : (a, 0) ∈ done := by rw [← horder]; simp
  have hin : ∀ e ∈ done, Within limit e.2 := by
    intro e he
    rw [← horder] at he
    rcases List.mem_cons.1 he with rfl | he
    · intro m _; exact Nat.zero_le _
    · obtain ⟨e', he', rfl⟩ := List.mem_map.1 he
      obtain ⟨_, k, h2, h3, _⟩ := h.edge e' he'
      simp only [h2]
      exact h3
  have hall : ∀ k x, Reach deps a k x → Within limit k → ∃ j ≤ k, (x, j) ∈ done := by
    intro k
    induction k with
    | zero => rintro x rfl _; exact ⟨0, Nat.le_refl _, hzero⟩
    | succ k ih =>
      rintro x ⟨p, hp, hx⟩ hw
      obtain ⟨j, hj, hm⟩ := ih p hp (fun m hm => by have := hw m hm; omega)
      have hdeep : tooDeep limit j = false := by
        unfold tooDeep
        cases limit with
        | none => rfl
        | some m => have := hw m rfl; simp; omega
      obtain ⟨i, hi, hmem⟩ := h.closed (p, j) hm hdeep x hx
      rw [hq, List.append_nil] at hmem
      simp at hi
      exact ⟨i, by omega, hmem⟩
  have hone : ∀ x j j', (x, j) ∈ done → (x, j') ∈ done → j = j' := by
    intro x j j' h1 h2
    have := List.inj_on_of_nodup_map hnames h1 h2 rfl
    exact (Prod.mk.inj this).2
  have hreach : ∀ e ∈ done, Reach deps a e.2 e.1 := by
    intro e he
    exact h.reach e (List.mem_append_left _ he)
  have hlevel : ∀ x k, (x, k) ∈ done ↔ Level deps a k x ∧ Within limit k := by
    intro x k
    constructor
    · intro hm
      refine ⟨⟨hreach _ hm, fun j hj hr => ?_⟩, hin _ hm⟩
      obtain ⟨i, hi, hmi⟩ := hall j x hr (fun m hm' => by have := hin _ hm m hm'; simp at this; omega)
      have := hone x i k hmi hm
      omega
    · rintro ⟨⟨hr, hmin⟩, hw⟩
      obtain ⟨j, hj, hm⟩ := hall k x hr hw
      by_cases hjk : j = k
      · exact hjk ▸ hm
      · exact absurd (hreach _ hm) (hmin j (by omega))
  refine ⟨edges, h.tree, ?_, fun e he => ?_, fun x k => ?_⟩
  · have := h.nodup
    rw [h.vis] at this
    exact (List.nodup_cons.1 this).2
  · obtain ⟨h1, k, h2, _, h4⟩ := h.edge e he
    exact ⟨h1, k, h2, ((hlevel _ _).1 h4).1⟩
  · rw [← hlevel, ← horder]
    constructor
    · rintro ⟨p, hp⟩
      exact List.mem_cons_of_mem _ (List.mem_map.2 ⟨_, hp, rfl⟩)
    · intro hm
      rcases List.mem_cons.1 hm with hm | hm
      · simp at hm
      · obtain ⟨⟨x', p, k'⟩, he, hx⟩ := List.mem_map.1 hm
        simp at hx
        exact ⟨p, by rw [← hx.1, ← hx.2]; exact he⟩

theorem reach_iff {f : Fields} {a : Args} {all : List Package} {k : Nat} {s x : Str} :
    Reach (dependents f a all) s k x ↔ Chain (DependsOn f a all) s k x := by
  have hd : ∀ p x, x ∈ dependents f a all p ↔ DependsOn f a all p x := by
    intro p x
    simp only [dependents, DependsOn, List.mem_map, List.mem_filter, needs, Bool.or_eq_true, Bool.and_eq_true,
      List.contains_iff_mem]
    constructor
    · rintro ⟨q, ⟨h1, h2⟩, h3⟩
      exact ⟨q, h1, h3, by tauto⟩
    · rintro ⟨q, h1, h3, h2⟩
      exact ⟨q, ⟨h1, by tauto⟩, h3⟩
  induction k generalizing x with
  | zero =>
    constructor
    · rintro rfl; exact .start
    · intro h; cases h; rfl
  | succ k ih =>
    constructor
    · rintro ⟨p, hp, hx⟩; exact .step (ih.1 hp) ((hd p x).1 hx)
    · intro h
      cases h with
      | step h1 h2 => exact ⟨_, ih.2 h1, (hd _ x).2 h2⟩

theorem level_iff {f : Fields} {a : Args} {all : List Package} {k : Nat} {s x : Str} :
    Level (dependents f a all) s k x ↔ Distance (DependsOn f a all) s k x := by
  unfold Level Distance
  simp only [reach_iff]

theorem mem_dependents {f : Fields} {a : Args} {all : List Package} {p x : Str} :
    x ∈ dependents f a all p ↔ DependsOn f a all p x := by
  simp only [dependents, DependsOn, List.mem_map, List.mem_filter, needs, Bool.or_eq_true, Bool.and_eq_true,
    List.contains_iff_mem]
  constructor
  · rintro ⟨q, ⟨h1, h2⟩, h3⟩
    exact ⟨q, h1, h3, by tauto⟩
  · rintro ⟨q, h1, h3, h2⟩
    exact ⟨q, ⟨h1, by tauto⟩, h3⟩

theorem filterMap_lines (quiet : Bool) (l : List (List Str)) (n : Nat) (h : ∀ x ∈ l, x ≠ []) :
    ((l.zipIdx n).filterMap (levelLine quiet)).length = l.length ∧
    ∀ i x, l[i]? = some x → ((l.zipIdx n).filterMap (levelLine quiet))[i]? =
      some ((if quiet then [] else c!"#" ++ decimal (n + i) ++ c!": ") ++ joinWith c!" " (Search.sortStr x)) := by
  induction l generalizing n with
  | nil => simp
  | cons y l ih =>
    obtain ⟨h1, h2⟩ := ih (n + 1) fun x hx => h x (List.mem_cons_of_mem _ hx)
    have hy : levelLine quiet (y, n) =
        some ((if quiet then [] else c!"#" ++ decimal n ++ c!": ") ++ joinWith c!" " (Search.sortStr y)) := by
      have : y.isEmpty = false := by
        have := h y List.mem_cons_self
        cases y with
        | nil => exact absurd rfl this
        | cons => rfl
      unfold levelLine
      rw [this]
      cases quiet <;> simp
    rw [List.zipIdx_cons, List.filterMap_cons, hy]
    refine ⟨by simp [h1], fun i x hx => ?_⟩
    cases i with
    | zero => simp at hx; subst hx; simp
    | succ i =>
      simp at hx
      have := h2 i x hx
      simpa [Nat.add_assoc, Nat.add_comm 1 i] using this

end DependsLemmas
open DependsLemmas

/-! ## C162 -/

/-- C162: the search ends, whatever cycles there are: a round for every package and two more are enough. -/
theorem C162_ends (f : Fields) (a : Args) (all : List Package) (fuel : Nat) (hf : all.length + 2 ≤ fuel) :
    ∃ t, tree (dependents f a all) a.depth a.package fuel = some t := by
  refine loop_ends (all := all.map (·.name)) ?_ fuel (inv_start _ _ _) (by simpa using hf)
  intro p d hd
  obtain ⟨q, h1, h2, _⟩ := mem_dependents.1 hd
  exact List.mem_map.2 ⟨q, h1, h2⟩

/-- C162: the level `k` of the tree holds the packages at the distance `k`, as far as the limit goes, each once. -/
theorem C162_levels (f : Fields) (a : Args) (all : List Package) (fuel : Nat) (t : RevTree)
    (h : tree (dependents f a all) a.depth a.package fuel = some t) :
    (∀ k x, x ∈ t.levels[k + 1]?.getD [] ↔ Distance (DependsOn f a all) a.package (k + 1) x ∧ Within a.depth (k + 1)) ∧
    t.levels[0]?.getD [] = [] ∧ t.levels.flatten.Nodup := by
  obtain ⟨edges, rfl, hn, he, hl⟩ := tree_spec h
  refine ⟨fun k x => ?_, ?_, ?_⟩
  · rw [levels_of edges hn, ← level_iff, ← hl x k, List.mem_map]
    constructor
    · rintro ⟨⟨x', p, k'⟩, hm, rfl⟩
      simp only [List.mem_filter, decide_eq_true_eq] at hm
      exact ⟨p, by rw [← hm.2]; exact hm.1⟩
    · rintro ⟨p, hp⟩
      exact ⟨(x, p, k + 1), by simp [hp], rfl⟩
  · rw [levels_of edges hn, List.map_eq_nil_iff, List.filter_eq_nil_iff]
    intro e he'
    obtain ⟨_, k, hk, _⟩ := he e he'
    simp [hk]
  · rw [List.nodup_flatten]
    have hget : ∀ (i : Nat) (hi : i < (treeOf edges).levels.length),
        (treeOf edges).levels[i] = (edges.filter (·.2.2 = i)).map (·.1) := by
      intro i hi
      have := levels_of edges hn i
      rwa [List.getElem?_eq_getElem hi] at this
    constructor
    · intro l hm
      obtain ⟨i, hi, rfl⟩ := List.getElem_of_mem hm
      rw [hget i hi]
      exact hn.sublist (List.filter_sublist.map _)
    · rw [List.pairwise_iff_getElem]
      intro i j hi hj hij x hx hy
      rw [hget i hi] at hx
      rw [hget j hj] at hy
      obtain ⟨e1, he1, h1⟩ := List.mem_map.1 hx
      obtain ⟨e2, he2, h2⟩ := List.mem_map.1 hy
      simp only [List.mem_filter, decide_eq_true_eq] at he1 he2
      have := List.inj_on_of_nodup_map hn he1.1 he2.1 (h1.trans h2.symm)
      rw [this] at he1
      omega

/-- C162: what is printed.  Without dependents a single line says so; otherwise there is a line for every distance up to
the greatest within the limit, in order, with the packages at that distance in alphabetical order. -/
theorem C162_printed (f : Fields) (a : Args) (all : List Package) (fuel : Nat) (t : RevTree)
    (h : tree (dependents f a all) a.depth a.package fuel = some t) :
    ((∀ x, ¬ (Distance (DependsOn f a all) a.package 1 x ∧ Within a.depth 1)) →
      printed a t = [c!"No packages depend on '" ++ a.package ++ c!"'"]) ∧
    ((∃ x, Distance (DependsOn f a all) a.package 1 x ∧ Within a.depth 1) →
      (∀ k, k < (printed a t).length ↔ ∃ x, Distance (DependsOn f a all) a.package (k + 1) x ∧ Within a.depth (k + 1)) ∧
      ∀ k, k < (printed a t).length → ∃ names, Ascending names ∧
        (∀ x, x ∈ names ↔ Distance (DependsOn f a all) a.package (k + 1) x ∧ Within a.depth (k + 1)) ∧
        (printed a t)[k]? = some ((if a.quiet then [] else c!"#" ++ decimal (k + 1) ++ c!": ") ++ joinWith c!" " names)) := by
  obtain ⟨hmem, hzero, hnd⟩ := C162_levels f a all fuel t h
  obtain ⟨edges, rfl, hn, he, hl⟩ := tree_spec h
  generalize ht : treeOf edges = t at hmem hzero hnd
  have hlen := length_of edges
  rw [ht] at hlen
  have hedge : ∀ e ∈ edges, ∃ k, e.2.2 = k + 1 ∧ Distance (DependsOn f a all) a.package (k + 1) e.1 ∧
      Within a.depth (k + 1) := by
    intro e hm
    obtain ⟨_, k, hk, _⟩ := he e hm
    have := (hl e.1 k).1 ⟨e.2.1, by rw [← hk]; exact hm⟩
    rw [level_iff] at this
    exact ⟨k, hk, this⟩
  have hbelow : ∀ k x, Distance (DependsOn f a all) a.package (k + 1) x ∧ Within a.depth (k + 1) → ∀ j ≤ k,
      ∃ y, Distance (DependsOn f a all) a.package (j + 1) y ∧ Within a.depth (j + 1) := by
    intro k x hx j hj
    obtain ⟨y, hy⟩ := SearchLemmas.level_below (level_iff.2 hx.1) (show j + 1 ≤ k + 1 by omega)
    exact ⟨y, level_iff.1 hy, fun m hm => by have := hx.2 m hm; omega⟩
  constructor
  · intro hno
    have hnil : edges = [] := by
      cases hc : edges with
      | nil => rfl
      | cons e es =>
        obtain ⟨k, _, hk⟩ := hedge e (by rw [hc]; simp)
        obtain ⟨y, hy⟩ := hbelow k e.1 hk 0 (Nat.zero_le _)
        exact absurd hy (hno y)
    unfold printed
    rw [hlen.1 hnil]
    simp
  · rintro ⟨x0, hx0⟩
    obtain ⟨p0, hp0⟩ := (hl x0 0).2 ⟨level_iff.2 hx0.1, hx0.2⟩
    have hpos := hlen.2.1 _ hp0
    simp only at hpos
    obtain ⟨l0, rest, hlv⟩ : ∃ l0 rest, t.levels = l0 :: rest := by
      cases hc : t.levels with
      | nil => rw [hc] at hpos; simp at hpos
      | cons l0 rest => exact ⟨l0, rest, rfl⟩
    have hl0 : l0 = [] := by rw [hlv] at hzero; simpa using hzero
    subst hl0
    have hne : t.levels ≠ [] := by rw [hlv]; simp
    have hcount : ∀ k, k < rest.length ↔ ∃ x, Distance (DependsOn f a all) a.package (k + 1) x ∧ Within a.depth (k + 1) := by
      intro k
      constructor
      · intro hk
        obtain ⟨e, hm, hx⟩ := hlen.2.2 hne
        obtain ⟨k', hk', hd⟩ := hedge e hm
        rw [hlv] at hx
        simp at hx
        exact hbelow k' e.1 hd k (by omega)
      · rintro ⟨x, hx⟩
        obtain ⟨p, hp⟩ := (hl x k).2 ⟨level_iff.2 hx.1, hx.2⟩
        have := hlen.2.1 _ hp
        rw [hlv] at this
        simpa using this
    have hrest : ∀ k x, x ∈ rest[k]?.getD [] ↔ Distance (DependsOn f a all) a.package (k + 1) x ∧ Within a.depth (k + 1) := by
      intro k x
      rw [← hmem k x, hlv]
      simp
    have hnon : ∀ l ∈ rest, l ≠ [] := by
      intro l hm hx
      obtain ⟨i, hi, rfl⟩ := List.getElem_of_mem hm
      obtain ⟨y, hy⟩ := (hcount i).1 hi
      have := (hrest i y).2 hy
      rw [List.getElem?_eq_getElem hi, Option.getD_some, hx] at this
      cases this
    have hpr : printed a t = (rest.zipIdx 1).filterMap (levelLine a.quiet) := by
      unfold printed
      rw [hlv]
      simp [List.zipIdx_cons, levelLine]
    obtain ⟨h1, h2⟩ := filterMap_lines a.quiet rest 1 hnon
    rw [hpr, h1]
    refine ⟨hcount, fun k hk => ?_⟩
    have hk' : rest[k]? = some rest[k] := List.getElem?_eq_getElem hk
    refine ⟨Search.sortStr rest[k], SearchLemmas.ascending_of (SearchLemmas.sortStr_sorted _)
      ((SearchLemmas.sortStr_perm _).nodup_iff.2 ?_), fun x => ?_, ?_⟩
    · rw [hlv, List.nodup_flatten] at hnd
      exact hnd.1 _ (by simp)
    · rw [(SearchLemmas.sortStr_perm _).mem_iff, ← hrest k x, hk']
      rfl
    · rw [h2 k _ hk', Nat.add_comm 1 k]

/-- C162: the edges of the graph.  Each leads from a package to one that depends on it and is one step further away, and
every package of the levels is at the end of exactly one. -/
theorem C162_graph (f : Fields) (a : Args) (all : List Package) (fuel : Nat) (t : RevTree)
    (h : tree (dependents f a all) a.depth a.package fuel = some t) :
    (∀ p d, d ∈ (mget t.nodes p).getD [] → DependsOn f a all p d ∧ ∃ k, Distance (DependsOn f a all) a.package k p ∧
      Distance (DependsOn f a all) a.package (k + 1) d) ∧
    ∀ d, (∃ k, Distance (DependsOn f a all) a.package (k + 1) d ∧ Within a.depth (k + 1)) ↔
      ∃ p, d ∈ (mget t.nodes p).getD [] ∧ ∀ q, d ∈ (mget t.nodes q).getD [] → q = p := by
  obtain ⟨edges, rfl, hn, he, hl⟩ := tree_spec h
  have hm : ∀ p d, d ∈ (mget (treeOf edges).nodes p).getD [] ↔ ∃ k, (d, p, k) ∈ edges := by
    intro p d
    rw [nodes_of edges hn, List.mem_map]
    constructor
    · rintro ⟨⟨d', p', k⟩, hm, rfl⟩
      simp only [List.mem_filter, decide_eq_true_eq] at hm
      exact ⟨k, by rw [← hm.2]; exact hm.1⟩
    · rintro ⟨k, hk⟩
      exact ⟨(d, p, k), by simp [hk], rfl⟩
  refine ⟨fun p d hd => ?_, fun d => ?_⟩
  · obtain ⟨k, hk⟩ := (hm p d).1 hd
    obtain ⟨h1, j, h2, h3⟩ := he _ hk
    simp only at h1 h2 h3
    subst h2
    exact ⟨mem_dependents.1 h1, j, level_iff.1 h3, level_iff.1 ((hl d j).1 ⟨p, hk⟩).1⟩
  · constructor
    · rintro ⟨k, hk⟩
      obtain ⟨p, hp⟩ := (hl d k).2 ⟨level_iff.2 hk.1, hk.2⟩
      refine ⟨p, (hm p d).2 ⟨_, hp⟩, fun q hq => ?_⟩
      obtain ⟨k', hk'⟩ := (hm q d).1 hq
      have := List.inj_on_of_nodup_map hn hp hk' rfl
      simp at this
      exact this.1.symm
    · rintro ⟨p, hp, _⟩
      obtain ⟨k, hk⟩ := (hm p d).1 hp
      obtain ⟨_, j, h2, _⟩ := he _ hk
      simp only at h2
      subst h2
      have := (hl d j).1 ⟨p, hk⟩
      rw [level_iff] at this
      exact ⟨j, this⟩

/-- C162: the text of the graph: a line for the package asked about, and a line for every edge. -/
theorem C162_dot (iter : List (Str × List Str) → List (Str × List Str)) (hi : ∀ l, (iter l).Perm l) (root : Str) (edges : List (Str × List Str))
    (levels : List (List Str)) (hk : (mkeys edges).Nodup) (p d : Str) (h : d ∈ (mget edges p).getD []) :
    c!"  \"" ++ p ++ c!"\" -> \"" ++ d ++ c!"\";" ∈ dot iter root ⟨levels, edges⟩ ∧
    c!"  \"" ++ root ++ c!"\" [fillcolor=\"#AAFFAA\", fontweight=bold];" ∈ dot iter root ⟨levels, edges⟩ := by
  refine ⟨?_, by simp [dot, quoted]⟩
  cases hg : mget edges p with
  | none => rw [hg] at h; cases h
  | some l =>
    rw [hg] at h
    unfold dot
    refine List.mem_append_left _ (List.mem_append_right _ (List.mem_flatMap.2 ⟨(p, l), ((hi _).mem_iff).2 (mget_some_mem hg), ?_⟩))
    refine List.mem_cons_of_mem _ (List.mem_map.2 ⟨d, h, ?_⟩)
    simp [quoted]

/-- Nothing but `base` is required by name. -/
def noFields : Fields := ⟨fun _ => [], fun _ => []⟩

def askAbout (s : Str) : Args := ⟨s, none, false, false, false⟩

/-- Three packages: `b` requires `a`, `c` requires `a` and `b`. -/
def dependsAll : List Package :=
  [⟨c!"a", none, [], [], [], none⟩, ⟨c!"b", none, [c!"a"], [], [], none⟩, ⟨c!"c", none, [c!"a", c!"b"], [], [], none⟩,
   ⟨c!"d", none, [c!"c"], [], [], none⟩]

example : (tree (dependents noFields (askAbout c!"a") dependsAll) none c!"a" 6).map (printed (askAbout c!"a")) =
    some [c!"#1: b c", c!"#2: d"] := by decide +kernel

example : (tree (dependents noFields { askAbout c!"a" with depth := some 1 } dependsAll) (some 1) c!"a" 6).map
    (printed (askAbout c!"a")) = some [c!"#1: b c"] := by decide +kernel

/-- C162 is false of the graph as an account of all dependencies: `c` requires `b`, both are listed, and the graph has no
edge from `b` to `c`. -/
theorem C162_graph_false : ¬ ∀ (f : Fields) (a : Args) (all : List Package) (fuel : Nat) (t : RevTree) (p d : Str),
    tree (dependents f a all) a.depth a.package fuel = some t → p ∈ t.levels.flatten → d ∈ t.levels.flatten →
    DependsOn f a all p d → d ∈ (mget t.nodes p).getD [] := by
  intro h
  have ht : tree (dependents noFields (askAbout c!"a") dependsAll) none c!"a" 6 =
      some ⟨[[], [c!"b", c!"c"], [c!"d"]], [(c!"c", [c!"d"]), (c!"a", [c!"b", c!"c"])]⟩ := by decide +kernel
  have := h noFields (askAbout c!"a") dependsAll 6 _ c!"b" c!"c" ht (by decide) (by decide)
    ⟨_, List.mem_cons_of_mem _ (List.mem_cons_of_mem _ List.mem_cons_self), rfl, Or.inl (by decide)⟩
  revert this
  decide

/-- C162 is false of requirements as packages have them: a package that requires a version of `a` is not listed among the
dependents of `a`. -/
theorem C162_version_false : ¬ ∀ (f : Fields) (a : Args) (all : List Package) (fuel : Nat) (t : RevTree) (p : Package) (v : Str),
    tree (dependents f a all) a.depth a.package fuel = some t → a.depth = none → p ∈ all →
    (a.package ++ c!"-" ++ v) ∈ p.requires → p.name ∈ t.levels.flatten := by
  intro h
  have ht : tree (dependents noFields (askAbout c!"a") [⟨c!"b", none, [c!"a-1"], [], [], none⟩]) none c!"a" 6 =
      some ⟨[], []⟩ := by decide +kernel
  have := h noFields (askAbout c!"a") [⟨c!"b", none, [c!"a-1"], [], [], none⟩] 6 _ _ c!"1" ht rfl List.mem_cons_self (by decide)
  revert this
  decide

/-- C162 is false of the command: in repositories whose packages have names, it never finds a dependent, because it asks
for the family with the empty name. -/
theorem C162_nothing (srt : Sorting) (hs : SortingOk srt) (f : Fields) (fuel : Nat) (hf : 2 ≤ fuel) (roots : List Root) (a : Args)
    (h : ∀ root ∈ roots, ∀ p ∈ onDisk root, p.name ≠ []) :
    command srt f fuel roots a = .err ∨
    command srt f fuel roots a = .ok (some [c!"No packages depend on '" ++ a.package ++ c!"'"]) := by
  have hm : (managerFind srt (roots.map fun r => (r, State.new)) []).2 = .err ∨
      (managerFind srt (roots.map fun r => (r, State.new)) []).2 = .ok [] := by
    have he : (findEach (roots.map fun r => (r, State.new)) []).2 = .err ∨
        (findEach (roots.map fun r => (r, State.new)) []).2 = .ok [] := by
      induction roots with
      | nil => exact Or.inr rfl
      | cons r roots ih =>
        have ih := ih fun root hr => h root (List.mem_cons_of_mem _ hr)
        have hf := SearchLemmas.find_absent [] r (h r List.mem_cons_self)
        rw [List.map_cons, findEach]
        cases hr : find r State.new [] with
        | mk s' x =>
          rw [hr] at hf
          simp only at hf
          rcases hf with rfl | rfl
          · exact Or.inl rfl
          · simp only
            cases hr' : findEach (roots.map fun r => (r, State.new)) [] with
            | mk rest y =>
              rw [hr'] at ih
              simp only at ih
              rcases ih with rfl | rfl
              · exact Or.inl rfl
              · exact Or.inr rfl
    unfold managerFind
    cases hr : findEach (roots.map fun r => (r, State.new)) [] with
    | mk rest y =>
      rw [hr] at he
      simp only at he
      rcases he with rfl | rfl
      · exact Or.inl rfl
      · exact Or.inr (SearchLemmas.sort_nil hs _)
  unfold command
  rcases hm with hm | hm
  · rw [hm]; exact Or.inl rfl
  · rw [hm]
    obtain ⟨t, ht⟩ := C162_ends f a [] fuel (by simpa using hf)
    have hp := (C162_printed f a [] fuel t ht).1 (by
      rintro x ⟨⟨hc, _⟩, _⟩
      cases hc with
      | step _ hd =>
        obtain ⟨p, hp, _⟩ := hd
        cases hp)
    right
    simp only [ht, Option.map_some, hp]

/-- A repository with `a`, and `b` that requires it. -/
def dependsRoot : Root :=
  some [(c!"a", .package (.ok ⟨c!"a", none, [], [], [], none⟩)), (c!"b", .package (.ok ⟨c!"b", none, [c!"a"], [], [], none⟩))]

/-- C162: not every dependent is listed by the command. -/
theorem C162_nothing_false (srt : Sorting) (hs : SortingOk srt) : ¬ ∀ (fuel : Nat) (roots : List Root) (s : Str) (lines : List Str)
    (p : Package) (root : Root), command srt noFields fuel roots (askAbout s) = .ok (some lines) → root ∈ roots →
    p ∈ onDisk root → s ∈ p.requires → ∃ l ∈ lines, c!"#1: ".isPrefixOf l := by
  intro h
  have hn : ∀ root ∈ [dependsRoot], ∀ p ∈ onDisk root, p.name ≠ [] := by
    intro root hr p hp
    rw [List.mem_singleton.1 hr] at hp
    have : onDisk dependsRoot = [⟨c!"a", none, [], [], [], none⟩, ⟨c!"b", none, [c!"a"], [], [], none⟩] := rfl
    rw [this] at hp
    rcases List.mem_cons.1 hp with rfl | hp
    · exact fun h => by cases h
    · rw [List.mem_singleton.1 hp]; exact fun h => by cases h
  have hc : command srt noFields 2 [dependsRoot] (askAbout c!"a") = .ok (some [c!"No packages depend on '" ++ c!"a" ++ c!"'"]) := by
    rcases C162_nothing srt hs noFields 2 (Nat.le_refl _) [dependsRoot] (askAbout c!"a") hn with hc | hc
    · exfalso
      have : command srt noFields 2 [dependsRoot] (askAbout c!"a") ≠ .err := by
        have hsort := SearchLemmas.sort_nil hs (sortedCmp true)
        unfold command
        have : (managerFind srt ([dependsRoot].map fun r => (r, State.new)) []).2 = .ok [] := hsort
        rw [this]
        simp
      exact this hc
    · exact hc
  obtain ⟨l, hl, hp⟩ := h 2 [dependsRoot] c!"a" _ ⟨c!"b", none, [c!"a"], [], [], none⟩ dependsRoot hc List.mem_cons_self
    (by show _ ∈ [_, _]; simp) (by decide)
  rw [List.mem_singleton.1 hl] at hp
  revert hp
  decide

end Rez.Props
