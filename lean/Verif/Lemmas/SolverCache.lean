import Verif.Spec.SolverCache
import Mathlib.Data.List.Induction
/-!
# Lemmas about the solver cache
-/
namespace Rez.SolverCache
open Rez Rez.Spec
variable {V : Type}

theorem mget_drop (c : Cache V) (k j : Str) : mget (c.drop k).entries j = if j = k then none else mget c.entries j :=
  mget_mdel _ _ _

theorem foldDrop_get (ks : List Str) (c : Cache V) (j : Str) :
    mget (ks.foldl Cache.drop c).entries j = if j ∈ ks then none else mget c.entries j := by
  induction ks generalizing c with
  | nil => simp
  | cons k ks ih =>
    rw [List.foldl_cons, ih, mget_drop]
    by_cases h1 : j ∈ ks
    · simp [h1]
    · by_cases h2 : j = k <;> simp [h1, h2]

theorem foldDrop_order (ks : List Str) (c : Cache V) :
    (ks.foldl Cache.drop c).order = c.order.filter fun k => k ∉ ks := by
  induction ks generalizing c with
  | nil => simp only [List.foldl_nil, List.not_mem_nil, not_false_eq_true, decide_true]; exact (List.filter_eq_self.mpr fun _ _ => rfl).symm
  | cons k ks ih =>
    rw [List.foldl_cons, ih]
    simp only [Cache.drop, Cache.forget, List.filter_filter]
    refine List.filter_congr fun x _ => ?_
    simp only [List.mem_cons, not_or, Bool.decide_and]
    by_cases h1 : x = k <;> by_cases h2 : x ∈ ks <;> simp [h1, h2]

theorem foldDrop_stats (ks : List Str) (c : Cache V) : (ks.foldl Cache.drop c).stats = c.stats := by
  induction ks generalizing c with
  | nil => rfl
  | cons k ks ih => rw [List.foldl_cons, ih]; rfl

theorem foldDrop_nodup (ks : List Str) {c : Cache V} (h : (mkeys c.entries).Nodup) :
    (mkeys (ks.foldl Cache.drop c).entries).Nodup := by
  induction ks generalizing c with
  | nil => exact h
  | cons k ks ih => rw [List.foldl_cons]; exact ih (nodup_mdel h k)

theorem mdel_length_le {α : Type} (m : List (Str × α)) (k : Str) : (mdel m k).length ≤ m.length :=
  List.length_filter_le _ _

theorem mdel_length_lt {α : Type} {m : List (Str × α)} {k : Str} (h : k ∈ mkeys m) : (mdel m k).length < m.length := by
  obtain ⟨e, he, rfl⟩ := List.mem_map.mp h
  have := List.length_filter_lt_length_iff_exists (p := fun p : Str × α => decide (p.1 ≠ e.1)) (l := m)
  exact this.mpr ⟨e, he, by simp⟩

theorem foldDrop_length_le (ks : List Str) (c : Cache V) :
    (ks.foldl Cache.drop c).entries.length ≤ c.entries.length := by
  induction ks generalizing c with
  | nil => exact Nat.le_refl _
  | cons k ks ih => rw [List.foldl_cons]; exact Nat.le_trans (ih _) (mdel_length_le _ _)

theorem foldDrop_length_lt {ks : List Str} {c : Cache V} {k : Str} (hk : k ∈ ks) (hc : k ∈ mkeys c.entries) :
    (ks.foldl Cache.drop c).entries.length < c.entries.length := by
  induction ks generalizing c with
  | nil => cases hk
  | cons a ks ih =>
    rw [List.foldl_cons]
    by_cases ha : a ∈ mkeys c.entries
    · exact Nat.lt_of_le_of_lt (foldDrop_length_le ks _) (mdel_length_lt ha)
    · have hka : k ≠ a := by rintro rfl; exact ha hc
      rcases List.mem_cons.mp hk with rfl | hk
      · exact absurd rfl hka
      · exact Nat.lt_of_lt_of_le (ih hk (mem_mkeys_mdel.mpr ⟨hc, hka⟩)) (mdel_length_le _ _)

/-! ## C39 -/

/-- every entry is the last put of its key -/
def Faithful (cfg : Config) (h : List (Op V)) (c : Cache V) : Prop :=
  ∀ k e, mget c.entries k = some e → lastPut k h = some (e.result, e.timestamp) ∧ e.ttl = cfg.ttl

theorem lastPut_snoc (k : Str) (h : List (Op V)) (o : Op V) : lastPut k (h ++ [o]) = (match o with
    | .put m k' v => if k' = k then (m.now k').map fun t => (v, t) else lastPut k h
    | .remove k' => if k' = k then none else lastPut k h
    | .clear => none
    | .get _ _ => lastPut k h) := by
  unfold lastPut
  rw [List.foldl_append]
  cases o <;> rfl

theorem faithful_sub {cfg : Config} {h : List (Op V)} {c d : Cache V} (hf : Faithful cfg h c)
    (hs : ∀ k e, mget d.entries k = some e → ∃ e', mget c.entries k = some e' ∧ e'.result = e.result ∧
      e'.timestamp = e.timestamp ∧ e'.ttl = e.ttl) : Faithful cfg h d := by
  intro k e he
  obtain ⟨e', h1, h2, h3, h4⟩ := hs k e he
  obtain ⟨h5, h6⟩ := hf k e' h1
  exact ⟨by rw [h5, h2, h3], h4 ▸ h6⟩

theorem evict_get {cfg : Config} {scan : List (Str × Entry V) → List (Str × Entry V)} {now : Str → Option Nat}
    {c : Cache V} {k : Str} {e : Entry V} (h : mget (evict cfg scan now c).entries k = some e) :
    mget c.entries k = some e := by
  unfold evict at h
  simp only [foldDrop_get] at h
  split at h
  · cases h
  · exact h

theorem get_entries {now : Option Nat} {c : Cache V} {k j : Str} {e : Entry V}
    (h : mget (get now c k).1.entries j = some e) : ∃ e', mget c.entries j = some e' ∧ e'.result = e.result ∧
      e'.timestamp = e.timestamp ∧ e'.ttl = e.ttl := by
  unfold get at h
  split at h
  · exact ⟨e, h, rfl, rfl, rfl⟩
  · split at h
    · simp only [Cache.touch, mget_mupd] at h
      split at h
      · cases hj : mget c.entries j with
        | none => rw [hj] at h; cases h
        | some e' =>
          rw [hj] at h
          simp only [Option.map_some, Option.some.injEq] at h
          subst h
          exact ⟨e', rfl, rfl, rfl, rfl⟩
      · exact ⟨e, h, rfl, rfl, rfl⟩
    · simp only [mget_drop] at h
      split at h
      · cases h
      · exact ⟨e, h, rfl, rfl, rfl⟩

theorem putInsert_get {cfg : Config} {m : Moment V} {c : Cache V} {k j : Str} {v : V} {e : Entry V}
    (h : mget (putInsert cfg m c k v).entries j = some e) :
    (∃ t, m.now k = some t ∧ j = k ∧ e = ⟨v, t, cfg.ttl, 0, t⟩) ∨
      (mget c.entries j = some e ∧ (j = k → m.now k = none)) := by
  unfold putInsert at h
  cases ht : m.now k with
  | none =>
    rw [ht] at h
    exact .inr ⟨h, fun _ => rfl⟩
  | some t =>
    rw [ht] at h
    simp only [Entry.new, Option.map_some, mget_mset] at h
    split at h
    · rename_i hj
      simp only [Option.some.injEq] at h
      exact .inl ⟨t, rfl, hj, h.symm⟩
    · rename_i hj
      refine .inr ⟨?_, fun h => absurd h hj⟩
      split at h
      · exact evict_get h
      · exact h

theorem put_entries (cfg : Config) (m : Moment V) (c : Cache V) (k : Str) (v : V) :
    (put cfg m c k v).entries = (putInsert cfg m c k v).entries := by
  unfold put
  cases hn : Entry.new v cfg.ttl (m.now k) with
  | none => simp only; unfold putInsert; rw [hn]
  | some e => rfl

theorem remove_entries (c : Cache V) (k j : Str) : mget (remove c k).1.entries j =
    if j = k then none else mget c.entries j := by
  unfold remove
  cases hk : mget c.entries k with
  | none =>
    simp only
    by_cases h : j = k
    · rw [if_pos h, h, hk]
    · rw [if_neg h]
  | some e => exact mget_drop c k j

theorem faithful_run {cfg : Config} {h : List (Op V)} (hc : ClockOk h) : Faithful cfg h (run cfg h) := by
  induction h using List.reverseRecOn with
  | nil => intro k e he; cases he
  | append_singleton h o ih =>
    have ih := ih fun m k v hm => hc m k v (List.mem_append_left _ hm)
    unfold run at ih ⊢
    rw [List.foldl_append]
    simp only [List.foldl_cons, List.foldl_nil]
    intro k e he
    rw [lastPut_snoc]
    cases o with
    | put m k' v =>
      simp only [Op.run, put_entries] at he
      have hck := hc m k' v (by simp)
      rcases putInsert_get he with ⟨t, ht, rfl, rfl⟩ | ⟨he, hk⟩
      · simp [ht]
      · by_cases hkk : k = k'
        · rw [hk hkk] at hck; cases hck
        · simp only [if_neg (Ne.symm hkk)]
          exact ih k e he
    | get now k' =>
      obtain ⟨e', h1, h2, h3, h4⟩ := get_entries he
      obtain ⟨h5, h6⟩ := ih k e' h1
      exact ⟨by rw [← h2, ← h3]; exact h5, h4 ▸ h6⟩
    | remove k' =>
      simp only [Op.run, remove_entries] at he
      by_cases hk : k = k'
      · rw [if_pos hk] at he; cases he
      · rw [if_neg hk] at he
        simp only [if_neg (Ne.symm hk)]
        exact ih k e he
    | clear => cases he

/-! ## C40 -/

theorem insertOn_perm (f : Str × Entry V → Nat) (x : Str × Entry V) (l : List (Str × Entry V)) :
    (insertOn f x l).Perm (x :: l) := by
  induction l with
  | nil => exact List.Perm.refl _
  | cons y l ih =>
    unfold insertOn
    split
    · exact (List.Perm.cons y ih).trans (List.Perm.swap x y l)
    · exact List.Perm.refl _

theorem sortOn_perm (f : Str × Entry V → Nat) (l : List (Str × Entry V)) : (sortOn f l).Perm l := by
  induction l with
  | nil => exact List.Perm.refl _
  | cons x l ih => exact (insertOn_perm f x _).trans (List.Perm.cons x ih)

theorem insertOn_sorted {f : Str × Entry V → Nat} {x : Str × Entry V} {l : List (Str × Entry V)}
    (h : l.Pairwise fun a b => f a ≤ f b) : (insertOn f x l).Pairwise fun a b => f a ≤ f b := by
  induction l with
  | nil => exact List.pairwise_singleton _ _
  | cons y l ih =>
    rw [List.pairwise_cons] at h
    unfold insertOn
    split
    · rename_i hlt
      refine List.pairwise_cons.mpr ⟨fun z hz => ?_, ih h.2⟩
      rcases List.mem_cons.mp ((insertOn_perm f x l).subset hz) with rfl | hz
      · omega
      · exact h.1 z hz
    · refine List.pairwise_cons.mpr ⟨fun z hz => ?_, List.pairwise_cons.mpr h⟩
      rcases List.mem_cons.mp hz with rfl | hz
      · omega
      · have := h.1 z hz; omega

theorem sortOn_sorted (f : Str × Entry V → Nat) (l : List (Str × Entry V)) :
    (sortOn f l).Pairwise fun a b => f a ≤ f b := by
  induction l with
  | nil => exact List.Pairwise.nil
  | cons x l ih => exact insertOn_sorted ih

theorem evictCount_pos (n : Nat) : 1 ≤ evictCount n := Nat.le_max_left _ _

/-- the order of use lists exactly the keys present, once each -/
structure Tidy (c : Cache V) : Prop where
  keys : (mkeys c.entries).Nodup
  order : c.order.Nodup
  same : ∀ k, k ∈ c.order ↔ k ∈ mkeys c.entries

theorem mem_mkeys_of_get {α : Type} {m m' : List (Str × α)} (h : ∀ j, mget m j = mget m' j) (j : Str) :
    j ∈ mkeys m ↔ j ∈ mkeys m' := by
  rw [← mget_isSome_iff, ← mget_isSome_iff, h]

theorem tidy_new : Tidy (Cache.new : Cache V) :=
  ⟨List.nodup_nil, List.nodup_nil, fun k => by simp [Cache.new, mkeys]⟩

theorem tidy_stats {c : Cache V} (h : Tidy c) (s : Stats) : Tidy { c with stats := s } := ⟨h.keys, h.order, h.same⟩

theorem tidy_drop {c : Cache V} (h : Tidy c) (k : Str) : Tidy (c.drop k) := by
  refine ⟨nodup_mdel h.keys k, h.order.filter _, fun j => ?_⟩
  simp only [Cache.drop, Cache.forget, mem_mkeys_mdel, List.mem_filter, bne_iff_ne, ne_eq, h.same]

theorem tidy_foldDrop (ks : List Str) {c : Cache V} (h : Tidy c) : Tidy (ks.foldl Cache.drop c) := by
  induction ks generalizing c with
  | nil => exact h
  | cons k ks ih => rw [List.foldl_cons]; exact ih (tidy_drop h k)

theorem tidy_touch {c d : Cache V} (h : Tidy c) {k : Str} (hk : (mkeys d.entries).Nodup)
    (hd : ∀ j, j ∈ mkeys d.entries ↔ j = k ∨ j ∈ mkeys c.entries) (ho : d.order = c.order) : Tidy (d.touch k) := by
  refine ⟨hk, ?_, fun j => ?_⟩
  · simp only [Cache.touch, ho]
    refine List.nodup_append.mpr ⟨h.order.filter _, by simp, fun a ha b hb => ?_⟩
    rw [List.mem_singleton.mp hb]
    simpa using (List.mem_filter.mp ha).2
  · simp only [Cache.touch, ho, List.mem_append, List.mem_filter, List.mem_singleton, bne_iff_ne, ne_eq]
    rw [hd, ← h.same]
    by_cases hj : j = k <;> simp [hj]

theorem tidy_evict {cfg : Config} {scan : List (Str × Entry V) → List (Str × Entry V)} {now : Str → Option Nat}
    {c : Cache V} (h : Tidy c) : Tidy (evict cfg scan now c) := tidy_stats (tidy_foldDrop _ h) _

theorem tidy_put {cfg : Config} {m : Moment V} {c : Cache V} {k : Str} {v : V} (h : Tidy c) :
    Tidy (put cfg m c k v) := by
  unfold put
  cases hn : Entry.new v cfg.ttl (m.now k) with
  | none => exact h
  | some e =>
    simp only [putFinish]
    refine tidy_stats ?_ _
    unfold putInsert
    rw [hn]
    simp only
    have hd : Tidy (if c.entries.length ≥ cfg.maxEntries then evict cfg m.scan m.now c else c) := by
      split
      · exact tidy_evict h
      · exact h
    exact tidy_touch hd (nodup_mset hd.keys k e) (fun j => mem_mkeys_mset) rfl

theorem tidy_get {now : Option Nat} {c : Cache V} {k : Str} (h : Tidy c) : Tidy (get now c k).1 := by
  unfold get
  cases hk : mget c.entries k with
  | none => exact tidy_stats h _
  | some e =>
    simp only
    split
    · refine tidy_stats (tidy_touch (d := { c with entries := mupd c.entries k fun e => e.markAccessed now }) h
        (by rw [mkeys_mupd]; exact h.keys) (fun j => ?_) rfl) _
      simp only [mkeys_mupd]
      constructor
      · exact .inr
      · rintro (rfl | hj)
        · exact (mget_isSome_iff _ _).mp ⟨e, hk⟩
        · exact hj
    · exact tidy_stats (tidy_drop h k) _

theorem tidy_remove {c : Cache V} {k : Str} (h : Tidy c) : Tidy (remove c k).1 := by
  unfold remove
  split
  · exact h
  · exact tidy_stats (tidy_drop h k) _

theorem tidy_op {cfg : Config} {c : Cache V} (h : Tidy c) (o : Op V) : Tidy (o.run cfg c) := by
  cases o with
  | put m k v => exact tidy_put h
  | get now k => exact tidy_get h
  | remove k => exact tidy_remove h
  | clear => exact tidy_new

theorem tidy_run (cfg : Config) (h : List (Op V)) : Tidy (run cfg h) := by
  induction h using List.reverseRecOn with
  | nil => exact tidy_new
  | append_singleton h o ih =>
    unfold run at ih ⊢
    rw [List.foldl_append]
    exact tidy_op ih o

theorem victims_hit {cfg : Config} {m : Moment V} {c : Cache V} (hs : ScanOk m) (ht : Tidy c) (hst : cfg.strategy ≠ .ttl)
    (hne : c.entries ≠ []) : ∃ k ∈ victims cfg m.scan m.now c, k ∈ mkeys c.entries := by
  have hpos := evictCount_pos c.entries.length
  have sorted : ∀ f : Str × Entry V → Nat, ∃ k ∈ ((sortOn f (m.scan c.entries)).take (evictCount c.entries.length)).map Prod.fst,
      k ∈ mkeys c.entries := by
    intro f
    have hp : (sortOn f (m.scan c.entries)).Perm c.entries := (sortOn_perm f _).trans (hs _)
    cases hl : sortOn f (m.scan c.entries) with
    | nil => rw [hl] at hp; exact absurd hp.nil_eq.symm hne
    | cons x l =>
      refine ⟨x.1, List.mem_map.mpr ⟨x, ?_, rfl⟩, List.mem_map.mpr ⟨x, hp.subset (by rw [hl]; exact List.mem_cons_self), rfl⟩⟩
      rw [show evictCount c.entries.length = (evictCount c.entries.length - 1) + 1 by omega, List.take_succ_cons]
      exact List.mem_cons_self
  unfold victims
  cases hstr : cfg.strategy with
  | lru =>
    simp only
    obtain ⟨x, l, hl⟩ := List.exists_cons_of_ne_nil hne
    have hx : x.1 ∈ c.order := (ht.same x.1).mpr (by rw [hl]; exact List.mem_cons_self)
    cases ho : c.order with
    | nil => rw [ho] at hx; cases hx
    | cons k ks =>
      refine ⟨k, ?_, (ht.same k).mp (by rw [ho]; exact List.mem_cons_self)⟩
      rw [show evictCount c.entries.length = (evictCount c.entries.length - 1) + 1 by omega, List.take_succ_cons]
      exact List.mem_cons_self
  | lfu => exact sorted _
  | fifo => exact sorted _
  | ttl => exact absurd hstr hst

theorem put_length {cfg : Config} {m : Moment V} {c : Cache V} {k : Str} {v : V} (hs : ScanOk m) (ht : Tidy c)
    (hst : cfg.strategy ≠ .ttl) (hm : 1 ≤ cfg.maxEntries) (hc : c.entries.length ≤ cfg.maxEntries) :
    (put cfg m c k v).entries.length ≤ cfg.maxEntries := by
  rw [put_entries]
  unfold putInsert
  cases hn : Entry.new v cfg.ttl (m.now k) with
  | none => exact hc
  | some e =>
    simp only [mset, List.length_cons]
    split
    · rename_i hge
      have hne : c.entries ≠ [] := by rintro h; rw [h] at hge; simp at hge; omega
      obtain ⟨k', hk', hkc⟩ := victims_hit hs ht hst hne
      have h1 : (evict cfg m.scan m.now c).entries.length < c.entries.length := foldDrop_length_lt hk' hkc
      have h2 := mdel_length_le (evict cfg m.scan m.now c).entries k
      omega
    · have h2 := mdel_length_le c.entries k
      omega

theorem op_length {cfg : Config} {c : Cache V} {o : Op V} (hs : ∀ m k v, o = .put m k v → ScanOk m) (ht : Tidy c)
    (hst : cfg.strategy ≠ .ttl) (hm : 1 ≤ cfg.maxEntries) (hc : c.entries.length ≤ cfg.maxEntries) :
    (o.run cfg c).entries.length ≤ cfg.maxEntries := by
  cases o with
  | put m k v => exact put_length (hs m k v rfl) ht hst hm hc
  | get now k =>
    simp only [Op.run, get]
    split
    · exact hc
    · split
      · simp only [Cache.touch, mupd, List.length_map]; exact hc
      · exact Nat.le_trans (mdel_length_le _ _) hc
  | remove k =>
    simp only [Op.run, remove]
    split
    · exact hc
    · exact Nat.le_trans (mdel_length_le _ _) hc
  | clear => exact Nat.zero_le _

/-! ## C85 -/

theorem usedAfter_snoc_ne {l : List Str} {a b k : Str} (h : UsedAfter l a b) (ha : a ≠ k) : UsedAfter (l ++ [k]) a b := by
  obtain ⟨pre, post, rfl, hp⟩ := h
  refine ⟨pre, post ++ [k], by simp, fun hm => ?_⟩
  rcases List.mem_append.mp hm with hm | hm
  · exact hp hm
  · exact ha (List.mem_singleton.mp hm)

theorem usedAfter_snoc_self (l : List Str) (a k : Str) : UsedAfter (l ++ [k]) a k := ⟨l, [], rfl, List.not_mem_nil⟩

/-- the order of use is the order of the last uses -/
def ByUse (l : List Str) (order : List Str) : Prop := order.Pairwise (UsedAfter l)

theorem byUse_filter {l order : List Str} (h : ByUse l order) (p : Str → Bool) : ByUse l (order.filter p) :=
  List.Pairwise.filter p h

theorem byUse_touch {l order : List Str} (h : ByUse l order) (k : Str) :
    ByUse (l ++ [k]) ((order.filter fun j => j != k) ++ [k]) := by
  unfold ByUse
  rw [List.pairwise_append]
  refine ⟨?_, List.pairwise_singleton _ _, fun a _ b hb => ?_⟩
  · refine (List.Pairwise.imp_of_mem ?_ (byUse_filter h _))
    intro a b ha _ hab
    exact usedAfter_snoc_ne hab (by simpa using (List.mem_filter.mp ha).2)
  · rw [List.mem_singleton.mp hb]; exact usedAfter_snoc_self l a k

/-- the state of the replay behind `uses` -/
def replay (cfg : Config) (h : List (Op V)) : Cache V × List Str :=
  h.foldl (fun (s : Cache V × List Str) o => (o.run cfg s.1, s.2 ++ (match o with
    | .put m k _ => if (m.now k).isSome then [k] else []
    | .get now k => if (get now s.1 k).2.isSome then [k] else []
    | _ => []))) (Cache.new, [])

theorem replay_fst (cfg : Config) (h : List (Op V)) : (replay cfg h).1 = run cfg h := by
  induction h using List.reverseRecOn with
  | nil => rfl
  | append_singleton h o ih =>
    unfold replay run at ih ⊢
    rw [List.foldl_append, List.foldl_append]
    simp only [List.foldl_cons, List.foldl_nil]
    rw [ih]

theorem uses_snoc (cfg : Config) (h : List (Op V)) (o : Op V) : uses cfg (h ++ [o]) = uses cfg h ++ (match o with
    | .put m k _ => if (m.now k).isSome then [k] else []
    | .get now k => if (get now (run cfg h) k).2.isSome then [k] else []
    | _ => []) := by
  have : uses cfg (h ++ [o]) = (replay cfg (h ++ [o])).2 := rfl
  rw [this]
  unfold replay
  rw [List.foldl_append]
  simp only [List.foldl_cons, List.foldl_nil]
  rw [show (List.foldl _ (Cache.new, []) h) = replay cfg h from rfl, replay_fst]
  rfl

theorem put_order (cfg : Config) (m : Moment V) (c : Cache V) (k : Str) (v : V) (t : Nat) (ht : m.now k = some t) :
    ∃ p : Str → Bool, (put cfg m c k v).order = ((c.order.filter p).filter fun j => j != k) ++ [k] := by
  unfold put
  rw [ht]
  simp only [Entry.new, Option.map_some, putFinish, Cache.touch, putInsert, ht]
  split
  · exact ⟨fun j => j ∉ victims cfg m.scan m.now c, by rw [evict]; simp only [foldDrop_order]⟩
  · exact ⟨fun _ => true, by simp⟩

theorem byUse_run (cfg : Config) (h : List (Op V)) : ByUse (uses cfg h) (run cfg h).order := by
  induction h using List.reverseRecOn with
  | nil => exact List.Pairwise.nil
  | append_singleton h o ih =>
    rw [uses_snoc]
    have hrun : run cfg (h ++ [o]) = o.run cfg (run cfg h) := by unfold run; rw [List.foldl_append]; rfl
    rw [hrun]
    cases o with
    | put m k v =>
      simp only [Op.run]
      cases ht : m.now k with
      | none =>
        have : put cfg m (run cfg h) k v = run cfg h := by unfold put; rw [ht]; rfl
        rw [this]
        simpa using ih
      | some t =>
        obtain ⟨p, hp⟩ := put_order cfg m (run cfg h) k v t ht
        rw [hp]
        simp only [Option.isSome_some, if_true]
        exact byUse_touch (byUse_filter ih p) k
    | get now k =>
      simp only [Op.run]
      unfold get
      cases hk : mget (run cfg h).entries k with
      | none => simpa using ih
      | some e =>
        simp only
        by_cases hv : e.isValid now = true
        · rw [if_pos hv]
          simp only [Option.isSome_some, if_true, Cache.touch]
          exact byUse_touch ih k
        · rw [if_neg hv]
          simp only [Option.isSome_none, Bool.false_eq_true, if_false, List.append_nil, Cache.drop, Cache.forget]
          exact byUse_filter ih _
    | remove k =>
      simp only [Op.run, List.append_nil]
      unfold remove
      split
      · exact ih
      · exact byUse_filter ih _
    | clear => exact List.Pairwise.nil

theorem pairwise_take_drop {α : Type} {R : α → α → Prop} {l : List α} (h : l.Pairwise R) {n : Nat} {a b : α}
    (ha : a ∈ l.take n) (hb : b ∈ l) (hnb : b ∉ l.take n) : R a b := by
  rw [← List.take_append_drop n l] at h hb
  rcases List.mem_append.mp hb with hb | hb
  · exact absurd hb hnb
  · exact (List.pairwise_append.mp h).2.2 a ha b hb

theorem hits_snoc (cfg : Config) (key : Str) (h : List (Op V)) (o : Op V) : hits cfg key (h ++ [o]) = (match o with
    | .put m k _ => if k = key ∧ (m.now k).isSome then 0 else hits cfg key h
    | .get now k => if k = key ∧ (get now (run cfg h) k).2.isSome then hits cfg key h + 1 else hits cfg key h
    | _ => hits cfg key h) := by
  have hfst : ∀ h : List (Op V), (hitState cfg key h).1 = run cfg h := by
    intro h
    induction h using List.reverseRecOn with
    | nil => rfl
    | append_singleton h o ih =>
      unfold hitState run at ih ⊢
      rw [List.foldl_append, List.foldl_append]
      simp only [List.foldl_cons, List.foldl_nil]
      rw [ih]
  have hst : hits cfg key (h ++ [o]) = (match o with
    | .put m k _ => if k = key ∧ (m.now k).isSome then 0 else (hitState cfg key h).2
    | .get now k => if k = key ∧ (get now (hitState cfg key h).1 k).2.isSome then (hitState cfg key h).2 + 1 else (hitState cfg key h).2
    | _ => (hitState cfg key h).2) := by
    unfold hits hitState
    rw [List.foldl_append]
    cases o <;> rfl
  rw [hst, hfst]
  cases o <;> rfl

/-- the access count of an entry is the number of hits since its put -/
theorem counts_run (cfg : Config) (h : List (Op V)) :
    ∀ k e, mget (run cfg h).entries k = some e → e.accessCount = hits cfg k h := by
  induction h using List.reverseRecOn with
  | nil => intro k e he; cases he
  | append_singleton h o ih =>
    have hrun : run cfg (h ++ [o]) = o.run cfg (run cfg h) := by unfold run; rw [List.foldl_append]; rfl
    rw [hrun]
    intro k e he
    rw [hits_snoc]
    cases o with
    | put m k' v =>
      simp only [Op.run, put_entries] at he
      rcases putInsert_get he with ⟨t, ht, rfl, rfl⟩ | ⟨he, hk⟩
      · simp [ht]
      · simp only
        rw [if_neg]
        · exact ih k e he
        · rintro ⟨rfl, hs⟩
          rw [hk rfl] at hs; cases hs
    | get now k' =>
      simp only [Op.run] at he ⊢
      unfold get at he ⊢
      cases hk : mget (run cfg h).entries k' with
      | none =>
        simp only [hk] at he ⊢
        simpa using ih k e he
      | some e' =>
        simp only [hk] at he ⊢
        by_cases hv : e'.isValid now = true
        · rw [if_pos hv] at he ⊢
          simp only [Cache.touch, mget_mupd] at he
          simp only [Option.isSome_some, and_true]
          by_cases hkk : k = k'
          · subst hkk
            rw [if_pos rfl, hk] at he
            simp only [Option.map_some, Option.some.injEq] at he
            rw [if_pos rfl, ← he, ← ih k e' hk]
            rfl
          · rw [if_neg hkk] at he
            rw [if_neg (Ne.symm hkk)]
            exact ih k e he
        · rw [if_neg hv] at he ⊢
          simp only [mget_drop] at he
          simp only [Option.isSome_none, Bool.false_eq_true, and_false, if_false]
          split at he
          · cases he
          · exact ih k e he
    | remove k' =>
      simp only [Op.run, remove_entries] at he
      split at he
      · cases he
      · exact ih k e he
    | clear => cases he

theorem put_evicted {cfg : Config} {m : Moment V} {c : Cache V} {k : Str} {v : V} {a : Str} (ha : a ∈ mkeys c.entries)
    (hg : a ∉ mkeys (put cfg m c k v).entries) : a ∈ victims cfg m.scan m.now c := by
  rw [← mget_none_iff, put_entries] at hg
  rw [← mget_isSome_iff] at ha
  obtain ⟨e, he⟩ := ha
  unfold putInsert at hg
  split at hg
  · rw [he] at hg; cases hg
  · simp only [mget_mset] at hg
    split at hg
    · cases hg
    · split at hg
      · simp only [evict, foldDrop_get] at hg
        by_contra hno
        rw [if_neg hno, he] at hg
        cases hg
      · rw [he] at hg; cases hg

theorem put_survivor {cfg : Config} {m : Moment V} {c : Cache V} {k : Str} {v : V} {a b : Str} (hb : b ∈ mkeys (put cfg m c k v).entries)
    (hbk : b ≠ k) (ha : a ∈ mkeys c.entries) (hg : a ∉ mkeys (put cfg m c k v).entries) : b ∉ victims cfg m.scan m.now c := by
  rw [← mget_none_iff, put_entries] at hg
  rw [← mget_isSome_iff, put_entries] at hb
  rw [← mget_isSome_iff] at ha
  obtain ⟨e, he⟩ := ha
  obtain ⟨e', he'⟩ := hb
  unfold putInsert at hg he'
  split at hg
  · rw [he] at hg; cases hg
  · rename_i e'' hn
    rw [hn] at he'
    simp only [mget_mset, if_neg hbk] at he'
    simp only [mget_mset] at hg
    split at hg
    · cases hg
    · split at hg
      · rename_i hge
        rw [if_pos hge] at he'
        simp only [evict, foldDrop_get] at he'
        intro hm
        rw [if_pos hm] at he'
        cases he'
      · rw [he] at hg; cases hg

theorem sorted_victims {f : Str × Entry V → Nat} {m : Moment V} (hs : ScanOk m) {c : Cache V} (hn : (mkeys c.entries).Nodup) {n : Nat} {a b : Str}
    (ha : a ∈ ((sortOn f (m.scan c.entries)).take n).map Prod.fst)
    (hb : b ∉ ((sortOn f (m.scan c.entries)).take n).map Prod.fst) {ea eb : Entry V} (hea : mget c.entries a = some ea)
    (heb : mget c.entries b = some eb) : f (a, ea) ≤ f (b, eb) := by
  have hp : (sortOn f (m.scan c.entries)).Perm c.entries := (sortOn_perm f _).trans (hs _)
  obtain ⟨x, hx, rfl⟩ := List.mem_map.mp ha
  have hxe : x = (x.1, ea) := by
    have := mget_of_mem hn (k := x.1) (v := x.2) (hp.subset (List.mem_of_mem_take hx))
    rw [hea] at this
    simp only [Option.some.injEq] at this
    rw [this]
  rw [← hxe]
  refine pairwise_take_drop (sortOn_sorted f _) hx (hp.symm.subset (mget_some_mem heb)) fun h => ?_
  exact hb (List.mem_map.mpr ⟨_, h, rfl⟩)

end Rez.SolverCache
