import Verif.Spec.RepoCache
import Mathlib.Data.List.Induction
/-!
# Lemmas about the repository cache
-/
namespace Rez.RepoCache
open Rez Rez.Spec.RepoCache
variable {P : Type}

theorem run_snoc (cfg : Config) (h : List (Op P)) (o : Op P) : run cfg (h ++ [o]) = o.run cfg (run cfg h) := by
  simp [run, List.foldl_append]

theorem lastPut_snoc (key : Str) (h : List (Op P)) (o : Op P) : lastPut key (h ++ [o]) = (match o with
    | .put w k package path => if k = key ∧ putSucceeds w path then some ⟨w, package, path⟩ else lastPut key h
    | .remove k => if k = key then none else lastPut key h
    | .clear => none
    | .get _ _ => lastPut key h
    | .cleanup _ => lastPut key h) := by
  unfold lastPut
  rw [List.foldl_append]
  cases o <;> rfl

theorem foldDel_get {α : Type} (ks : List Str) (l : List (Str × α)) (j : Str) :
    mget (ks.foldl mdel l) j = if j ∈ ks then none else mget l j := by
  induction ks generalizing l with
  | nil => simp
  | cons k ks ih =>
    rw [List.foldl_cons, ih, mget_mdel]
    by_cases h1 : j ∈ ks
    · simp [h1]
    · by_cases h2 : j = k <;> simp [h1, h2]

theorem foldDel_nodup {α : Type} (ks : List Str) {l : List (Str × α)} (h : (mkeys l).Nodup) :
    (mkeys (ks.foldl mdel l)).Nodup := by
  induction ks generalizing l with
  | nil => exact h
  | cons k ks ih => rw [List.foldl_cons]; exact ih (nodup_mdel h k)

/-- the keys that a cleanup removes -/
def expired (w : World) (c : Cache P) : List Str := (c.index.filter fun p => !p.2.isValid w).map Prod.fst

theorem cleanup_index (w : World) (c : Cache P) (k : Str) :
    mget (cleanup w c).index k = if k ∈ expired w c then none else mget c.index k := foldDel_get _ _ _

theorem cleanup_disk (w : World) (c : Cache P) (k : Str) :
    mget (cleanup w c).disk k = if k ∈ expired w c then none else mget c.disk k := foldDel_get _ _ _

theorem mem_expired {w : World} {c : Cache P} (hn : (mkeys c.index).Nodup) {k : Str} {e : Entry P}
    (he : mget c.index k = some e) : k ∈ expired w c ↔ e.isValid w = false := by
  simp only [expired, List.mem_map, List.mem_filter, Prod.exists, exists_and_right, exists_eq_right]
  constructor
  · rintro ⟨e', hmem, hv⟩
    have := mget_of_mem hn hmem
    rw [he] at this; simp at this; subst this; simpa using hv
  · intro hv
    exact ⟨e, mget_some_mem he, by simp [hv]⟩

theorem cleanupIfNeeded_cases (cfg : Config) (w : World) (c : Cache P) :
    cleanupIfNeeded cfg w c = c ∨ cleanupIfNeeded cfg w c = cleanup w c := by
  unfold cleanupIfNeeded
  rcases c.lastCleanup with _ | last
  · exact .inr rfl
  · simp only
    split
    · exact .inr rfl
    · exact .inl rfl

/-- `Entry::new` succeeds exactly when the clock and the source can be read -/
theorem new_cases (w : World) (package : P) (path : Str) (ttl : Nat) :
    (putSucceeds w path = false ∧ Entry.new w package path ttl = none) ∨
    ∃ t f, putSucceeds w path = true ∧ w.now = some t ∧ w.file path = some f ∧
      Entry.new w package path ttl = some ⟨package, t, ttl, path, f.mtime / 10 ^ 9⟩ := by
  unfold putSucceeds Entry.new
  rcases w.now with _ | t <;> rcases w.file path with _ | f <;> simp

/-! ## The entries are the last puts -/

/-- the entry is what this put made -/
def Made (cfg : Config) (e : Entry P) (p : Put P) : Prop :=
  ∃ t f, p.world.now = some t ∧ p.world.file p.path = some f ∧ e = ⟨p.package, t, cfg.ttl, p.path, f.mtime / 10 ^ 9⟩

/-- every indexed entry is the last put of its key -/
def Faithful (cfg : Config) (h : List (Op P)) (c : Cache P) : Prop :=
  ∀ k e, mget c.index k = some e → ∃ p, lastPut k h = some p ∧ Made cfg e p

theorem faithful_run (cfg : Config) (h : List (Op P)) : Faithful cfg h (run cfg h) := by
  induction h using List.reverseRecOn with
  | nil => intro k e he; simp [run, Cache.new] at he
  | append_singleton h o ih =>
    rw [run_snoc]
    intro k e he
    rw [lastPut_snoc]
    rcases o with ⟨w, x, pkg, path⟩ | ⟨w, x⟩ | x | w | _
    · simp only [Op.run, put] at he ⊢
      rcases new_cases w pkg path cfg.ttl with ⟨hs, hnew⟩ | ⟨t, f, hs, ht, hf, hnew⟩
      · rw [hnew] at he
        simp only [hs, Bool.false_eq_true, and_false, if_false]
        exact ih k e he
      · rw [hnew] at he
        simp only at he
        have he' : mget (mset (run cfg h).index x ⟨pkg, t, cfg.ttl, path, f.mtime / 10 ^ 9⟩) k = some e := by
          rcases cleanupIfNeeded_cases cfg w { run cfg h with
            disk := mset (run cfg h).disk x ⟨pkg, t, cfg.ttl, path, f.mtime / 10 ^ 9⟩
            index := mset (run cfg h).index x ⟨pkg, t, cfg.ttl, path, f.mtime / 10 ^ 9⟩
            entries := (mset (run cfg h).index x ⟨pkg, t, cfg.ttl, path, f.mtime / 10 ^ 9⟩).length } with hc | hc
          · rw [hc] at he; exact he
          · rw [hc, cleanup_index] at he
            split at he
            · cases he
            · exact he
        rw [mget_mset] at he'
        by_cases hx : k = x
        · subst hx
          rw [if_pos rfl] at he'; simp at he'; subst he'
          exact ⟨⟨w, pkg, path⟩, by simp [hs], t, f, ht, hf, rfl⟩
        · rw [if_neg hx] at he'
          rw [if_neg (by simp [Ne.symm hx])]
          exact ih k e he'
    · simp only [Op.run, get] at he
      rcases hx : mget (run cfg h).index x with _ | e'
      · rw [hx] at he; exact ih k e he
      · rw [hx] at he; simp only at he
        split at he
        · exact ih k e he
        · simp only [mget_mdel] at he
          split at he
          · cases he
          · exact ih k e he
    · simp only [Op.run, remove] at he
      rcases hx : mget (run cfg h).index x with _ | e'
      · rw [hx] at he
        have hkx : x ≠ k := by rintro rfl; rw [hx] at he; cases he
        simp only; rw [if_neg hkx]; exact ih k e he
      · rw [hx] at he
        simp only [mget_mdel] at he ⊢
        split at he
        · cases he
        · rename_i hkx
          rw [if_neg (Ne.symm hkx)]; exact ih k e he
    · simp only [Op.run, cleanup_index] at he
      split at he
      · cases he
      · exact ih k e he
    · simp [Op.run, clear, Cache.new] at he

/-! ## Index and disk -/

/-- every cache file belongs to an entry and every entry has its file; keys are listed once -/
def Synced (c : Cache P) : Prop := (mkeys c.index).Nodup ∧ ∀ k, mget c.disk k = mget c.index k

theorem synced_cleanup {w : World} {c : Cache P} (h : Synced c) : Synced (cleanup w c) :=
  ⟨foldDel_nodup _ h.1, fun k => by rw [cleanup_index, cleanup_disk, h.2]⟩

theorem synced_op (cfg : Config) (o : Op P) {c : Cache P} (h : Synced c) : Synced (o.run cfg c) := by
  rcases o with ⟨w, x, pkg, path⟩ | ⟨w, x⟩ | x | w | _
  · simp only [Op.run, put]
    rcases hnew : Entry.new w pkg path cfg.ttl with _ | e
    · exact h
    · simp only
      have h' : Synced { c with disk := mset c.disk x e, index := mset c.index x e, entries := (mset c.index x e).length } :=
        ⟨nodup_mset h.1 x e, fun k => by simp only [mget_mset, h.2]⟩
      rcases cleanupIfNeeded_cases cfg w { c with disk := mset c.disk x e, index := mset c.index x e, entries := (mset c.index x e).length } with hc | hc
      · rw [hc]; exact h'
      · rw [hc]; exact synced_cleanup h'
  · simp only [Op.run, get]
    rcases mget c.index x with _ | e
    · exact h
    · simp only
      split
      · exact h
      · exact ⟨nodup_mdel h.1 x, fun k => by simp only [mget_mdel, h.2]⟩
  · simp only [Op.run, remove]
    rcases mget c.index x with _ | e
    · exact h
    · exact ⟨nodup_mdel h.1 x, fun k => by simp only [mget_mdel, h.2]⟩
  · exact synced_cleanup h
  · exact ⟨by simp [Op.run, clear, Cache.new, mkeys], fun k => rfl⟩

theorem synced_run (cfg : Config) (h : List (Op P)) : Synced (run cfg h) := by
  induction h using List.reverseRecOn with
  | nil => exact ⟨by simp [run, Cache.new, mkeys], fun k => rfl⟩
  | append_singleton h o ih => rw [run_snoc]; exact synced_op cfg o ih

/-- a fresh entry is valid where it was made and where nothing has changed -/
theorem made_valid {cfg : Config} {e : Entry P} {p : Put P} (hm : Made cfg e p) {w : World}
    (ho : p.world.now.getD 0 + cfg.ttl < 2 ^ 64) (ha : Alive cfg p.world w)
    (hf : ∀ f g, p.world.file p.path = some f → w.file p.path = some g → g.mtime / 10 ^ 9 ≤ f.mtime / 10 ^ 9) :
    e.isValid w = true := by
  obtain ⟨t, f, ht, hfile, rfl⟩ := hm
  rw [ht] at ho
  simp only [Option.getD_some] at ho
  unfold Entry.isValid
  unfold Alive at ha
  rw [ht] at ha
  simp only [Option.getD_some] at ha
  rw [if_neg (by rw [Nat.mod_eq_of_lt ho]; omega)]
  rcases hg : w.file p.path with _ | g
  · rfl
  · simpa using hf f g hfile hg

/-! ## Counting -/

theorem cleanup_counts (w : World) (c : Cache P) : (cleanup w c).hits = c.hits ∧ (cleanup w c).misses = c.misses := ⟨rfl, rfl⟩

theorem counts_run (cfg : Config) (h : List (Op P)) : (run cfg h).hits + (run cfg h).misses = lookups h := by
  induction h using List.reverseRecOn with
  | nil => rfl
  | append_singleton h o ih =>
    rw [run_snoc]
    unfold lookups at ih ⊢
    rw [List.foldl_append]
    rcases o with ⟨w, x, pkg, path⟩ | ⟨w, x⟩ | x | w | _
    · simp only [Op.run, put, List.foldl_cons, List.foldl_nil]
      rcases Entry.new w pkg path cfg.ttl with _ | e
      · exact ih
      · simp only
        rcases cleanupIfNeeded_cases cfg w { run cfg h with disk := mset (run cfg h).disk x e, index := mset (run cfg h).index x e, entries := (mset (run cfg h).index x e).length } with hc | hc <;> rw [hc] <;> exact ih
    · simp only [Op.run, get, List.foldl_cons, List.foldl_nil]
      rcases mget (run cfg h).index x with _ | e
      · simp only; omega
      · simp only
        split
        · simp only; omega
        · simp only; omega
    · simp only [Op.run, remove, List.foldl_cons, List.foldl_nil]
      rcases mget (run cfg h).index x with _ | e <;> exact ih
    · exact ih
    · rfl

/-! ## Many entries -/

/-- nothing is removed when everything is valid -/
theorem cleanup_valid {w : World} {c : Cache P} (h : ∀ k e, (k, e) ∈ c.index → e.isValid w = true) :
    (cleanup w c).index = c.index := by
  have : (c.index.filter fun p => !p.2.isValid w) = [] := by
    rw [List.filter_eq_nil_iff]
    rintro ⟨k, e⟩ hmem
    simp [h k e hmem]
  simp [cleanup, this]

/-- the world of the demonstration: one source file, the clock at 5 -/
def still : World := ⟨some 5, fun _ => some ⟨7, c!"x"⟩⟩

/-- as many puts as asked -/
def many (n : Nat) : List (Op Unit) := (List.range n).map fun i => .put still (List.replicate i 'a') () c!"s"

theorem many_index (cfg : Config) (ht : 5 + cfg.ttl < 2 ^ 64) (n : Nat) :
    (run cfg (many n)).index = ((List.range n).map fun i => (List.replicate i 'a', (⟨(), 5, cfg.ttl, c!"s", 0⟩ : Entry Unit))).reverse := by
  induction n with
  | zero => rfl
  | succ n ih =>
    have hsplit : many (n + 1) = many n ++ [.put still (List.replicate n 'a') () c!"s"] := by
      simp [many, List.range_succ]
    rw [hsplit, run_snoc]
    simp only [Op.run, put]
    have hnew : Entry.new still () c!"s" cfg.ttl = some ⟨(), 5, cfg.ttl, c!"s", 0⟩ := rfl
    rw [hnew]; simp only
    have hdel : mdel (run cfg (many n)).index (List.replicate n 'a') = (run cfg (many n)).index := by
      rw [ih, mdel, List.filter_eq_self]
      rintro ⟨k, e⟩ hmem
      simp only [List.mem_reverse, List.mem_map, List.mem_range, Prod.mk.injEq] at hmem
      obtain ⟨i, hi, rfl, _⟩ := hmem
      have : i ≠ n := by omega
      simp [List.replicate_inj, this]
    have hset : mset (run cfg (many n)).index (List.replicate n 'a') ⟨(), 5, cfg.ttl, c!"s", 0⟩ =
        ((List.range (n + 1)).map fun i => (List.replicate i 'a', (⟨(), 5, cfg.ttl, c!"s", 0⟩ : Entry Unit))).reverse := by
      rw [mset, hdel, ih]
      simp [List.range_succ]
    have hvalid : ∀ k e, (k, e) ∈ mset (run cfg (many n)).index (List.replicate n 'a') ⟨(), 5, cfg.ttl, c!"s", 0⟩ →
        Entry.isValid still e = true := by
      intro k e hmem
      rw [hset] at hmem
      simp only [List.mem_reverse, List.mem_map, List.mem_range, Prod.mk.injEq] at hmem
      obtain ⟨i, hi, _, rfl⟩ := hmem
      simp only [Entry.isValid, still, Option.getD_some, Nat.mod_eq_of_lt ht]
      rw [if_neg (by omega)]; rfl
    rcases cleanupIfNeeded_cases cfg still { run cfg (many n) with
      disk := mset (run cfg (many n)).disk (List.replicate n 'a') ⟨(), 5, cfg.ttl, c!"s", 0⟩
      index := mset (run cfg (many n)).index (List.replicate n 'a') ⟨(), 5, cfg.ttl, c!"s", 0⟩
      entries := (mset (run cfg (many n)).index (List.replicate n 'a') ⟨(), 5, cfg.ttl, c!"s", 0⟩).length } with hc | hc
    · rw [hc]; exact hset
    · rw [hc, cleanup_valid hvalid]; exact hset

end Rez.RepoCache
