import Verif.Spec.TwoLevel
import Mathlib.Data.List.Induction
/-!
# Lemmas about the two-level cache
-/
namespace Rez.TwoLevel
open Rez Rez.Spec.TwoLevel
variable {K V : Type} [DecidableEq K]

/-- every entry of either level, with its key, satisfies `P` -/
def All (P : K → Entry V → Prop) (c : Cache K V) : Prop :=
  (∀ k e, mget c.l1 k = some e → P k e) ∧ ∀ k e, mget c.l2 k = some e → P k e

theorem all_new (P : K → Entry V → Prop) : All P (Cache.new : Cache K V) :=
  ⟨fun _ _ h => by simp [Cache.new] at h, fun _ _ h => by simp [Cache.new] at h⟩

theorem mdel_all {P : K → Entry V → Prop} {l : List (K × Entry V)} (h : ∀ k e, mget l k = some e → P k e) (x : K) :
    ∀ k e, mget (mdel l x) k = some e → P k e := by
  intro k e he
  rw [mget_mdel] at he
  split at he
  · cases he
  · exact h k e he

theorem mset_all {P : K → Entry V → Prop} {l : List (K × Entry V)} (h : ∀ k e, mget l k = some e → P k e) {x : K}
    {e : Entry V} (hx : P x e) : ∀ k e', mget (mset l x e) k = some e' → P k e' := by
  intro k e' he
  rw [mget_mset] at he
  split at he
  · rename_i hk; subst hk; simp at he; subst he; exact hx
  · exact h k e' he

theorem foldDel_all {P : K → Entry V → Prop} (ks : List K) {l : List (K × Entry V)}
    (h : ∀ k e, mget l k = some e → P k e) : ∀ k e, mget (ks.foldl mdel l) k = some e → P k e := by
  induction ks generalizing l with
  | nil => exact h
  | cons k ks ih => exact ih (mdel_all h k)

theorem all_evictL2 {P : K → Entry V → Prop} {c : Cache K V} (h : All P c) (m : Moment K V) : All P (evictL2 m c) :=
  ⟨h.1, foldDel_all _ h.2⟩

theorem all_demote {P : K → Entry V → Prop} {c : Cache K V} (h : All P c) (cfg : Config) (m : Moment K V) {k : K}
    {e : Entry V} (hp : P k e) : All P (demote cfg m c k e) := by
  unfold demote
  have : All P (if c.l2.length ≥ cfg.max2 then evictL2 m c else c) := by
    split
    · exact all_evictL2 h m
    · exact h
  exact ⟨mdel_all this.1 k, mset_all this.2 hp⟩

theorem all_evictOne {P : K → Entry V → Prop} {c : Cache K V} (h : All P c) (cfg : Config) (m : Moment K V) (k : K) :
    All P (evictOne cfg m c k) := by
  have ht : All P (take c k).1 := ⟨mdel_all h.1 k, h.2⟩
  unfold evictOne
  rcases he : (take c k).2 with _ | e
  · exact ht
  · simp only [settle]
    split
    · exact all_demote ht cfg m (h.1 k e he)
    · exact ht

theorem all_evictL1 {P : K → Entry V → Prop} {c : Cache K V} (h : All P c) (cfg : Config) (m : Moment K V) :
    All P (evictL1 cfg m c) := by
  unfold evictL1
  generalize List.take _ _ = ks
  induction ks generalizing c with
  | nil => exact h
  | cons k ks ih => exact ih (all_evictOne h cfg m k)

theorem all_makeRoom {P : K → Entry V → Prop} {c : Cache K V} (h : All P c) (cfg : Config) (m : Moment K V) :
    All P (makeRoom cfg m c) := by
  unfold makeRoom
  split
  · exact all_evictL1 h cfg m
  · exact h

theorem all_getL2 {P : K → Entry V → Prop} (hm : ∀ k e t, P k e → P k (e.mark t)) {c : Cache K V} (h : All P c)
    (cfg : Config) (m : Moment K V) (k : K) : All P (getL2 cfg m c k).1 := by
  unfold getL2
  rcases he : mget c.l2 k with _ | e
  · exact h
  · simp only
    have hp := h.2 k e he
    split
    · split
      · have := all_makeRoom (c := { c with l2 := mdel c.l2 k }) ⟨h.1, mdel_all h.2 k⟩ cfg m
        exact ⟨mset_all this.1 (hm _ _ _ (hm _ _ _ hp)), mdel_all this.2 k⟩
      · exact ⟨h.1, mset_all h.2 (hm _ _ _ hp)⟩
    · exact ⟨h.1, mdel_all h.2 k⟩

theorem all_get {P : K → Entry V → Prop} (hm : ∀ k e t, P k e → P k (e.mark t)) {c : Cache K V} (h : All P c)
    (cfg : Config) (m : Moment K V) (k : K) : All P (get cfg m c k).1 := by
  unfold get
  rcases he : mget c.l1 k with _ | e
  · exact all_getL2 hm h cfg m k
  · simp only
    split
    · exact ⟨mset_all h.1 (hm _ _ _ (h.1 k e he)), h.2⟩
    · exact all_getL2 (c := { c with l1 := mdel c.l1 k }) hm ⟨mdel_all h.1 k, h.2⟩ cfg m k

theorem all_put {P : K → Entry V → Prop} {c : Cache K V} (h : All P c) (cfg : Config) (m : Moment K V) {k : K} {v : V}
    (hp : P k ⟨v, m.now, m.now, 1, cfg.ttl⟩) : All P (put cfg m c k v) :=
  have := all_makeRoom h cfg m
  ⟨mset_all this.1 hp, this.2⟩

theorem getL2_sound {P : K → Entry V → Prop} {c : Cache K V} (h : All P c) {cfg : Config} {m : Moment K V} {k : K}
    {v : V} (hg : (getL2 cfg m c k).2 = some v) : ∃ e, P k e ∧ e.value = v ∧ e.isValid m.now = true := by
  unfold getL2 at hg
  rcases he : mget c.l2 k with _ | e
  · rw [he] at hg; simp at hg
  · rw [he] at hg; simp only at hg
    split at hg
    · rename_i hv
      split at hg <;> exact ⟨e, h.2 k e he, by simpa [Entry.mark] using hg, hv⟩
    · simp at hg

theorem get_sound {P : K → Entry V → Prop} {c : Cache K V} (h : All P c) {cfg : Config} {m : Moment K V} {k : K}
    {v : V} (hg : (get cfg m c k).2 = some v) : ∃ e, P k e ∧ e.value = v ∧ e.isValid m.now = true := by
  unfold get at hg
  rcases he : mget c.l1 k with _ | e
  · rw [he] at hg; exact getL2_sound h hg
  · rw [he] at hg; simp only at hg
    split at hg
    · rename_i hv
      exact ⟨e, h.1 k e he, by simpa using hg, hv⟩
    · exact getL2_sound (c := { c with l1 := mdel c.l1 k }) ⟨mdel_all h.1 k, h.2⟩ hg

theorem getL2_hit (cfg : Config) (m : Moment K V) (c : Cache K V) (k : K) : (getL2 cfg m c k).2.isSome =
    validAt m.now (mget c.l2 k) := by
  unfold getL2
  rcases mget c.l2 k with _ | e
  · rfl
  · simp only [validAt]
    split
    · rename_i hv
      split <;> simp [hv]
    · rename_i hv; simpa using hv

theorem get_hit (cfg : Config) (m : Moment K V) (c : Cache K V) (k : K) :
    (get cfg m c k).2.isSome = containsKey m c k := by
  unfold get containsKey
  rcases mget c.l1 k with _ | e
  · simp only; rw [getL2_hit]; rfl
  · simp only [validAt]
    split
    · rename_i hv; simp [hv]
    · rename_i hv
      rw [getL2_hit]
      simp at hv; rw [hv]; rfl

theorem valid_fresh {cfg : Config} {e : Entry V} {now : Nat} (ht : e.ttl = cfg.ttl) (hv : e.isValid now = true) :
    Fresh cfg e.created now := by
  simp only [Entry.isValid, Bool.or_eq_true, Bool.and_eq_true, beq_iff_eq, decide_eq_true_eq, ht] at hv
  rcases hv with h | ⟨h1, h2⟩
  · exact .inl h
  · refine .inr ⟨h1, ?_⟩
    rw [Nat.div_lt_iff_lt_mul (by decide)] at h2
    omega

theorem fresh_valid {cfg : Config} {e : Entry V} {now : Nat} (ht : e.ttl = cfg.ttl) (hf : Fresh cfg e.created now) :
    e.isValid now = true := by
  simp only [Entry.isValid, Bool.or_eq_true, Bool.and_eq_true, beq_iff_eq, decide_eq_true_eq, ht]
  rcases hf with h | ⟨h1, h2⟩
  · exact .inl h
  · refine .inr ⟨h1, ?_⟩
    rw [Nat.div_lt_iff_lt_mul (by decide)]
    omega

/-! ## What was put -/

theorem putsSince_snoc (key : K) (h : List (Op K V)) (o : Op K V) : putsSince key (h ++ [o]) = (match o with
    | .put m k v => if k = key then (v, m.now) :: putsSince key h else putsSince key h
    | .remove k => if k = key then [] else putsSince key h
    | .clear => []
    | .get _ _ => putsSince key h) := by
  unfold putsSince
  rw [List.foldl_append]
  cases o <;> rfl

theorem run_snoc (cfg : Config) (h : List (Op K V)) (o : Op K V) : run cfg (h ++ [o]) = (o.run cfg (run cfg h)) := by
  simp [run, List.foldl_append]

/-- the entry was put with this key since the key was last removed -/
def Put (cfg : Config) (h : List (Op K V)) (k : K) (e : Entry V) : Prop :=
  (e.value, e.created) ∈ putsSince k h ∧ e.ttl = cfg.ttl

theorem all_mono {P Q : K → Entry V → Prop} (hpq : ∀ k e, P k e → Q k e) {c : Cache K V} (h : All P c) : All Q c :=
  ⟨fun k e he => hpq k e (h.1 k e he), fun k e he => hpq k e (h.2 k e he)⟩

theorem all_run (cfg : Config) (h : List (Op K V)) : All (Put cfg h) (run cfg h) := by
  induction h using List.reverseRecOn with
  | nil => exact all_new _
  | append_singleton h o ih =>
    rw [run_snoc]
    rcases o with ⟨m, k, v⟩ | ⟨m, k⟩ | k | _
    · have hmono : ∀ x e, Put cfg h x e → Put cfg (h ++ [.put m k v]) x e := by
        rintro x e ⟨h1, h2⟩
        refine ⟨?_, h2⟩
        rw [putsSince_snoc]; simp only
        split
        · exact List.mem_cons_of_mem _ h1
        · exact h1
      refine all_put (all_mono hmono ih) cfg m ⟨?_, rfl⟩
      rw [putsSince_snoc]; simp
    · have hmono : ∀ x e, Put cfg h x e → Put cfg (h ++ [.get m k]) x e := by
        rintro x e ⟨h1, h2⟩
        exact ⟨by rw [putsSince_snoc]; exact h1, h2⟩
      exact all_get (fun _ _ _ hp => hp) (all_mono hmono ih) cfg m k
    · have hk : ∀ (l : List (K × Entry V)), (∀ x e, mget l x = some e → Put cfg h x e) →
          ∀ x e, mget (mdel l k) x = some e → Put cfg (h ++ [.remove k]) x e := by
        intro l hl x e he
        rw [mget_mdel] at he
        split at he
        · cases he
        · rename_i hx
          obtain ⟨h1, h2⟩ := hl x e he
          refine ⟨?_, h2⟩
          rw [putsSince_snoc]; simp only
          rw [if_neg (Ne.symm hx)]; exact h1
      exact ⟨hk _ ih.1, hk _ ih.2⟩
    · exact all_new _

theorem noOverwrite_init {h : List (Op K V)} {o : Op K V} (hn : NoOverwrite (h ++ [o])) : NoOverwrite h := by
  intro pre m k v post he
  exact hn pre m k v (post ++ [o]) (by rw [he]; simp)

theorem putsSince_single {h : List (Op K V)} (hn : NoOverwrite h) (k : K) : (putsSince k h).length ≤ 1 := by
  induction h using List.reverseRecOn with
  | nil => simp [putsSince]
  | append_singleton h o ih =>
    have ih := ih (noOverwrite_init hn)
    rw [putsSince_snoc]
    rcases o with ⟨m, x, v⟩ | ⟨m, x⟩ | x | _
    · simp only
      split
      · rename_i hx
        subst hx
        have := hn h m x v [] rfl
        rw [lastPut, List.head?_eq_none_iff] at this
        rw [this]; simp
      · exact ih
    · exact ih
    · simp only
      split
      · simp
      · exact ih
    · simp

/-! ## Room -/

theorem evictCount_pos (n : Nat) : 1 ≤ evictCount n := Nat.le_max_left _ _

theorem mdel_length_le' {α : Type} (m : List (K × α)) (k : K) : (mdel m k).length ≤ m.length := List.length_filter_le _ _

theorem mdel_length_lt' {α : Type} {m : List (K × α)} {k : K} (h : k ∈ mkeys m) : (mdel m k).length < m.length := by
  obtain ⟨e, he, rfl⟩ := List.mem_map.mp h
  have := List.length_filter_lt_length_iff_exists (p := fun p : K × α => decide (p.1 ≠ e.1)) (l := m)
  exact this.mpr ⟨e, he, by simp⟩

theorem mset_length_le {α : Type} (m : List (K × α)) (k : K) (v : α) : (mset m k v).length ≤ m.length + 1 := by
  simp only [mset, List.length_cons]
  have := mdel_length_le' m k
  omega

/-- setting a key that is there does not make the map longer -/
theorem mset_length_mem {α : Type} {m : List (K × α)} {k : K} (h : k ∈ mkeys m) (v : α) : (mset m k v).length ≤ m.length := by
  simp only [mset, List.length_cons]
  have := mdel_length_lt' h
  omega

theorem foldDel_length_le {α : Type} (ks : List K) (l : List (K × α)) : (ks.foldl mdel l).length ≤ l.length := by
  induction ks generalizing l with
  | nil => exact Nat.le_refl _
  | cons k ks ih => exact Nat.le_trans (ih _) (mdel_length_le' _ _)

/-- the first victim is a key of the map -/
theorem victims_head {m : Moment K V} (hm : MomentOk m) {l : List (K × Entry V)} (h : l ≠ []) :
    ∃ k ks, (m.order l).take (evictCount l.length) = k :: ks ∧ k ∈ mkeys l := by
  have hp := hm l
  rcases ho : m.order l with _ | ⟨k, ks⟩
  · rw [ho] at hp
    have := hp.length_eq
    simp [mkeys] at this
    exact absurd (List.eq_nil_of_length_eq_zero this.symm) h
  · obtain ⟨n, hn⟩ : ∃ n, evictCount l.length = n + 1 := ⟨evictCount l.length - 1, by have := evictCount_pos l.length; omega⟩
    rw [hn]
    exact ⟨k, ks.take n, rfl, hp.mem_iff.mp (by rw [ho]; simp)⟩

theorem evictL2_length {m : Moment K V} (hm : MomentOk m) {c : Cache K V} (h : c.l2 ≠ []) :
    (evictL2 m c).l2.length < c.l2.length := by
  obtain ⟨k, ks, hk, hmem⟩ := victims_head hm h
  simp only [evictL2, hk, List.foldl_cons]
  exact Nat.lt_of_le_of_lt (foldDel_length_le _ _) (mdel_length_lt' hmem)

theorem demote_bound {cfg : Config} (h2 : 1 ≤ cfg.max2) {m : Moment K V} (hm : MomentOk m) {c : Cache K V}
    (hc : c.l2.length ≤ cfg.max2) (k : K) (e : Entry V) :
    (demote cfg m c k e).l2.length ≤ cfg.max2 ∧ (demote cfg m c k e).l1.length ≤ c.l1.length := by
  unfold demote
  split
  · rename_i hf
    have hlt := evictL2_length hm (c := c) (by intro h; rw [h] at hf; simp at hf; omega)
    refine ⟨?_, mdel_length_le' _ _⟩
    have := mset_length_le (evictL2 m c).l2 k e
    simp only; omega
  · refine ⟨?_, mdel_length_le' _ _⟩
    have := mset_length_le c.l2 k e
    simp only; omega

theorem evictOne_bound {cfg : Config} (h2 : 1 ≤ cfg.max2) {m : Moment K V} (hm : MomentOk m) {c : Cache K V}
    (hc : c.l2.length ≤ cfg.max2) (k : K) :
    (evictOne cfg m c k).l2.length ≤ cfg.max2 ∧ (evictOne cfg m c k).l1.length ≤ (mdel c.l1 k).length := by
  unfold evictOne
  rcases (take c k).2 with _ | e
  · exact ⟨hc, Nat.le_refl _⟩
  · simp only [settle]
    split
    · exact demote_bound h2 hm (c := (take c k).1) hc k e
    · exact ⟨hc, Nat.le_refl _⟩

theorem evictAll_bound {cfg : Config} (h2 : 1 ≤ cfg.max2) {m : Moment K V} (hm : MomentOk m) (ks : List K)
    {c : Cache K V} (hc : c.l2.length ≤ cfg.max2) :
    (ks.foldl (evictOne cfg m) c).l2.length ≤ cfg.max2 ∧ (ks.foldl (evictOne cfg m) c).l1.length ≤ c.l1.length := by
  induction ks generalizing c with
  | nil => exact ⟨hc, Nat.le_refl _⟩
  | cons k ks ih =>
    have h1 := evictOne_bound h2 hm hc k
    have h3 := ih h1.1
    exact ⟨h3.1, Nat.le_trans h3.2 (Nat.le_trans h1.2 (mdel_length_le' _ _))⟩

/-- neither level is over its limit -/
def Within (cfg : Config) (c : Cache K V) : Prop := c.l1.length ≤ cfg.max1 ∧ c.l2.length ≤ cfg.max2

theorem makeRoom_bound {cfg : Config} (h1 : 1 ≤ cfg.max1) (h2 : 1 ≤ cfg.max2) {m : Moment K V} (hm : MomentOk m)
    {c : Cache K V} (hc : Within cfg c) :
    (makeRoom cfg m c).l1.length < cfg.max1 ∧ (makeRoom cfg m c).l2.length ≤ cfg.max2 := by
  unfold makeRoom
  split
  · rename_i hf
    obtain ⟨k, ks, hk, hmem⟩ := victims_head hm (l := c.l1) (by intro h; rw [h] at hf; simp at hf; omega)
    unfold evictL1
    rw [hk, List.foldl_cons]
    have h3 := evictOne_bound h2 hm hc.2 k
    have h4 := evictAll_bound h2 hm ks h3.1
    have h5 := mdel_length_lt' hmem
    have := hc.1
    exact ⟨by omega, h4.1⟩
  · rename_i hf
    exact ⟨by omega, hc.2⟩

theorem within_put {cfg : Config} (h1 : 1 ≤ cfg.max1) (h2 : 1 ≤ cfg.max2) {m : Moment K V} (hm : MomentOk m)
    {c : Cache K V} (hc : Within cfg c) (k : K) (v : V) : Within cfg (put cfg m c k v) := by
  have := makeRoom_bound h1 h2 hm hc
  refine ⟨?_, this.2⟩
  have h3 := mset_length_le (makeRoom cfg m c).l1 k ⟨v, m.now, m.now, 1, cfg.ttl⟩
  simp only [put, enter]; omega

theorem within_getL2 {cfg : Config} (h1 : 1 ≤ cfg.max1) (h2 : 1 ≤ cfg.max2) {m : Moment K V} (hm : MomentOk m)
    {c : Cache K V} (hc : Within cfg c) (k : K) : Within cfg (getL2 cfg m c k).1 := by
  unfold getL2
  rcases he : mget c.l2 k with _ | e
  · exact hc
  · simp only
    have hd := mdel_length_le' c.l2 k
    have := hc.2
    split
    · split
      · have h3 := makeRoom_bound h1 h2 hm (c := { c with l2 := mdel c.l2 k }) ⟨hc.1, by simp only; omega⟩
        have h4 := mset_length_le (makeRoom cfg m { c with l2 := mdel c.l2 k }).l1 k ((e.mark m.now).mark m.now)
        have h5 := mdel_length_le' (makeRoom cfg m { c with l2 := mdel c.l2 k }).l2 k
        exact ⟨by simp only [promote, raise]; omega, by simp only [promote, raise]; omega⟩
      · exact ⟨hc.1, Nat.le_trans (mset_length_mem ((mget_isSome_iff _ _).mp ⟨e, he⟩) _) hc.2⟩
    · exact ⟨hc.1, by simp only; omega⟩

theorem within_get {cfg : Config} (h1 : 1 ≤ cfg.max1) (h2 : 1 ≤ cfg.max2) {m : Moment K V} (hm : MomentOk m)
    {c : Cache K V} (hc : Within cfg c) (k : K) : Within cfg (get cfg m c k).1 := by
  unfold get
  rcases he : mget c.l1 k with _ | e
  · exact within_getL2 h1 h2 hm hc k
  · simp only
    split
    · exact ⟨Nat.le_trans (mset_length_mem ((mget_isSome_iff _ _).mp ⟨e, he⟩) _) hc.1, hc.2⟩
    · exact within_getL2 h1 h2 hm (c := { c with l1 := mdel c.l1 k }) ⟨Nat.le_trans (mdel_length_le' _ _) hc.1, hc.2⟩ k

theorem within_run {cfg : Config} (h1 : 1 ≤ cfg.max1) (h2 : 1 ≤ cfg.max2) {h : List (Op K V)} (hm : MomentsOk h) :
    Within cfg (run cfg h) := by
  induction h using List.reverseRecOn with
  | nil => exact ⟨Nat.zero_le _, Nat.zero_le _⟩
  | append_singleton h o ih =>
    have ih := ih ⟨fun m k v hmem => hm.1 m k v (by simp [hmem]), fun m k hmem => hm.2 m k (by simp [hmem])⟩
    rw [run_snoc]
    rcases o with ⟨m, k, v⟩ | ⟨m, k⟩ | k | _
    · exact within_put h1 h2 (hm.1 m k v (by simp)) ih k v
    · exact within_get h1 h2 (hm.2 m k (by simp)) ih k
    · exact ⟨Nat.le_trans (mdel_length_le' _ _) ih.1, Nat.le_trans (mdel_length_le' _ _) ih.2⟩
    · exact ⟨Nat.zero_le _, Nat.zero_le _⟩

/-! ## A first level that is never full -/

theorem roomy_init {cfg : Config} {h : List (Op K V)} {o : Op K V} (hn : Roomy cfg (h ++ [o])) : Roomy cfg h := by
  intro pre x post he
  exact hn pre x (post ++ [o]) (by rw [he]; simp)

/-- the second level is empty, and the first holds the last puts -/
def Plain (cfg : Config) (h : List (Op K V)) (c : Cache K V) : Prop :=
  c.l2 = [] ∧ ∀ k e, mget c.l1 k = some e → lastPut k h = some (e.value, e.created) ∧ e.ttl = cfg.ttl

theorem getL2_empty (cfg : Config) (m : Moment K V) {c : Cache K V} (h : c.l2 = []) (k : K) :
    getL2 cfg m c k = (c, none) := by
  unfold getL2; rw [h]; rfl

theorem plain_run {cfg : Config} {h : List (Op K V)} (hr : Roomy cfg h) : Plain cfg h (run cfg h) := by
  induction h using List.reverseRecOn with
  | nil => exact ⟨rfl, (all_new _).1⟩
  | append_singleton h o ih =>
    have ih := ih (roomy_init hr)
    have hroom := hr h o [] rfl
    rw [run_snoc]
    rcases o with ⟨m, k, v⟩ | ⟨m, k⟩ | k | _
    · have hmk : makeRoom cfg m (run cfg h) = run cfg h := by
        unfold makeRoom; rw [if_neg (by omega)]
      simp only [Op.run, put, hmk, enter]
      refine ⟨ih.1, ?_⟩
      intro x e he
      simp only [mget_mset] at he
      rw [lastPut, putsSince_snoc]
      split at he
      · rename_i hx; subst hx; simp at he; subst he; simp
      · rename_i hx
        simp only; rw [if_neg (Ne.symm hx)]; exact ih.2 x e he
    · have hl : ∀ x, lastPut x (h ++ [.get m k]) = lastPut x h := by
        intro x; rw [lastPut, putsSince_snoc]; rfl
      have hdel : ∀ x e, mget (mdel (run cfg h).l1 k) x = some e →
          lastPut x h = some (e.value, e.created) ∧ e.ttl = cfg.ttl := by
        intro x e he
        rw [mget_mdel] at he
        split at he
        · cases he
        · exact ih.2 x e he
      simp only [Op.run, Plain, hl, get]
      rcases he : mget (run cfg h).l1 k with _ | e
      · simp only
        rw [getL2_empty cfg m ih.1]; exact ih
      · simp only
        split
        · refine ⟨ih.1, ?_⟩
          intro x e' he'
          simp only [mget_mset] at he'
          split at he'
          · rename_i hx; subst hx; simp at he'; subst he'; exact ih.2 x e he
          · exact ih.2 x e' he'
        · rw [getL2_empty cfg m (c := { run cfg h with l1 := mdel (run cfg h).l1 k }) ih.1]
          exact ⟨ih.1, hdel⟩
    · refine ⟨by simp [Op.run, remove, ih.1, mdel], ?_⟩
      intro x e he
      simp only [Op.run, remove, mget_mdel] at he
      rw [lastPut, putsSince_snoc]
      split at he
      · cases he
      · rename_i hx
        simp only; rw [if_neg (Ne.symm hx)]; exact ih.2 x e he
    · exact ⟨rfl, (all_new _).1⟩

/-- with no expiry, what was put is there -/
theorem kept_run {cfg : Config} (ht : cfg.ttl = 0) {h : List (Op K V)} (hr : Roomy cfg h) {k : K} {v : V} {t : Nat}
    (hl : lastPut k h = some (v, t)) : ∃ e, mget (run cfg h).l1 k = some e ∧ e.value = v := by
  induction h using List.reverseRecOn generalizing v t with
  | nil => simp [lastPut, putsSince] at hl
  | append_singleton h o ih =>
    have hp := plain_run (roomy_init hr)
    have ih := fun v t => ih (roomy_init hr) (v := v) (t := t)
    have hroom := hr h o [] rfl
    rw [lastPut, putsSince_snoc] at hl
    rw [run_snoc]
    rcases o with ⟨m, x, w⟩ | ⟨m, x⟩ | x | _
    · have hmk : makeRoom cfg m (run cfg h) = run cfg h := by
        unfold makeRoom; rw [if_neg (by omega)]
      simp only [Op.run, put, hmk, enter, mget_mset]
      simp only at hl
      split at hl
      · rename_i hx; subst hx; simp at hl; exact ⟨_, if_pos rfl, hl.1⟩
      · rename_i hx; rw [if_neg (Ne.symm hx)]; exact ih v t hl
    · obtain ⟨e, he, hv⟩ := ih v t hl
      simp only [Op.run, get]
      rcases hx : mget (run cfg h).l1 x with _ | e'
      · simp only; rw [getL2_empty cfg m hp.1]; exact ⟨e, he, hv⟩
      · simp only
        have hvalid : e'.isValid m.now = true := by
          simp [Entry.isValid, (hp.2 x e' hx).2, ht]
        rw [if_pos hvalid]
        simp only [mget_mset]
        by_cases hk : k = x
        · subst hk; rw [he] at hx; simp at hx; subst hx; exact ⟨_, if_pos rfl, hv⟩
        · rw [if_neg hk]; exact ⟨e, he, hv⟩
    · simp only at hl
      split at hl
      · simp at hl
      · rename_i hx
        simp only [Op.run, remove, mget_mdel]
        rw [if_neg (Ne.symm hx)]; exact ih v t hl
    · simp at hl

end Rez.TwoLevel
