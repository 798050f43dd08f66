import Verif.Lemmas.RepoCache
/-!
# The repository cache: C45, C89, C90, C91
-/
namespace Rez.Props
open Rez Rez.RepoCache Rez.Spec.RepoCache
variable {P : Type}

/-! ## Data -/

/-- A world with one source file. -/
def src (now mtime : Nat) (content : Str) : World :=
  ⟨some now, fun p => if p = c!"pkg/package.py" then some ⟨mtime, content⟩ else none⟩

/-- One hour to live, cleanup every five minutes. -/
def rcfg : RepoCache.Config := ⟨3600, 300, 10⟩

/-- One package cached at second 100. -/
def cached : List (RepoCache.Op Nat) := [.put (src 100 (90 * 10 ^ 9) c!"v1") c!"pkg" 1 c!"pkg/package.py"]

/-! ## C45 -/

/-- A hit is the last successful put of the key, its time to live has not passed, and the source is unchanged as far as
modification times show: if it was changed, it is gone, or its time is not a later second.  Missing from C45: changes
that the modification time does not show, and restarts. -/
theorem C45_hit_partial (cfg : RepoCache.Config) (h : List (RepoCache.Op P)) (w : World) (k : Str) (package : P)
    (hg : (RepoCache.get w (RepoCache.run cfg h) k).2 = some package) :
    ∃ p, lastPut k h = some p ∧ p.package = package ∧ Alive cfg p.world w ∧
      (ChangesShow p.path p.world w → Unchanged p.path p.world w) := by
  unfold RepoCache.get at hg
  rcases he : mget (RepoCache.run cfg h).index k with _ | e
  · rw [he] at hg; simp at hg
  rw [he] at hg; simp only at hg
  split at hg
  · rename_i hv
    obtain ⟨p, hl, t, f, ht, hf, rfl⟩ := faithful_run cfg h k e he
    simp only [Option.some.injEq] at hg
    refine ⟨p, hl, hg, ?_, ?_⟩
    · unfold Alive
      rw [ht]
      unfold RepoCache.Entry.isValid at hv
      split at hv
      · cases hv
      · rename_i hle
        simp only [Option.getD_some] at hle ⊢
        have := Nat.mod_le (t + cfg.ttl) (2 ^ 64)
        omega
    · rintro (hu | ⟨f', g, hf', hg', hlt⟩)
      · exact hu
      · rw [hf] at hf'; simp at hf'; subst hf'
        unfold RepoCache.Entry.isValid at hv
        split at hv
        · cases hv
        · rw [hg'] at hv
          simp at hv
          omega
  · simp at hg

example : (RepoCache.get (src 200 (90 * 10 ^ 9) c!"v1") (RepoCache.run rcfg cached) c!"pkg").2 = some 1 ∧
    (RepoCache.get (src 200 (150 * 10 ^ 9) c!"v2") (RepoCache.run rcfg cached) c!"pkg").2 = none := by decide +kernel

/-- In any state, a package just cached is served while it is alive and the source shows no later second. -/
theorem C45_just_put (cfg : RepoCache.Config) (h : List (RepoCache.Op P)) (w w' : World) (k : Str) (package : P) (path : Str)
    (hs : putSucceeds w path = true) (ho : w.now.getD 0 + cfg.ttl < 2 ^ 64) (ha : Alive cfg w w')
    (hf : ∀ f g, w.file path = some f → w'.file path = some g → g.mtime / 10 ^ 9 ≤ f.mtime / 10 ^ 9) :
    (RepoCache.get w' (RepoCache.run cfg (h ++ [.put w k package path])) k).2 = some package := by
  rw [RepoCache.run_snoc]
  simp only [RepoCache.Op.run, RepoCache.put]
  rcases new_cases w package path cfg.ttl with ⟨hs', _⟩ | ⟨t, f, _, ht, hfile, hnew⟩
  · rw [hs] at hs'; cases hs'
  rw [hnew]; simp only
  have hm : Made cfg (⟨package, t, cfg.ttl, path, f.mtime / 10 ^ 9⟩ : RepoCache.Entry P) ⟨w, package, path⟩ :=
    ⟨t, f, ht, hfile, rfl⟩
  have hv : RepoCache.Entry.isValid w (⟨package, t, cfg.ttl, path, f.mtime / 10 ^ 9⟩ : RepoCache.Entry P) = true :=
    made_valid hm ho (by unfold Alive; simp) (by
      intro f g h1 h2
      simp only at h1 h2
      rw [h1] at h2; simp at h2; rw [h2]; exact Nat.le_refl _)
  have hv' : RepoCache.Entry.isValid w' (⟨package, t, cfg.ttl, path, f.mtime / 10 ^ 9⟩ : RepoCache.Entry P) = true :=
    made_valid hm ho ha hf
  have hget : ∀ c : RepoCache.Cache P, mget c.index k = some ⟨package, t, cfg.ttl, path, f.mtime / 10 ^ 9⟩ →
      (RepoCache.get w' c k).2 = some package := by
    intro c hc
    unfold RepoCache.get; rw [hc]; simp only; rw [if_pos hv']
  rcases cleanupIfNeeded_cases cfg w { RepoCache.run cfg h with
    disk := mset (RepoCache.run cfg h).disk k ⟨package, t, cfg.ttl, path, f.mtime / 10 ^ 9⟩
    index := mset (RepoCache.run cfg h).index k ⟨package, t, cfg.ttl, path, f.mtime / 10 ^ 9⟩
    entries := (mset (RepoCache.run cfg h).index k ⟨package, t, cfg.ttl, path, f.mtime / 10 ^ 9⟩).length } with hc | hc
  · rw [hc]; exact hget _ (by simp [mget_mset])
  · rw [hc]
    apply hget
    rw [cleanup_index, if_neg]
    · simp [mget_mset]
    · rw [mem_expired (e := ⟨package, t, cfg.ttl, path, f.mtime / 10 ^ 9⟩)
        (nodup_mset (synced_run cfg h).1 k _) (by simp [mget_mset]), hv]
      simp

example : (RepoCache.get (src 3000 (90 * 10 ^ 9) c!"v1") (RepoCache.run rcfg cached) c!"pkg").2 = some 1 :=
  C45_just_put rcfg [] (src 100 (90 * 10 ^ 9) c!"v1") _ _ 1 _ rfl (by decide) (by unfold Alive; decide) (by
    intro f g h1 h2
    simp [src] at h1 h2
    rw [← h1, ← h2]; exact Nat.le_refl _)

/-- C45 is false: a source changed within the same second is served in its old form. -/
theorem C45_same_second_false : ∃ (h : List (RepoCache.Op Nat)) (w : World) (p : Put Nat),
    lastPut c!"pkg" h = some p ∧ ¬Unchanged p.path p.world w ∧
      (RepoCache.get w (RepoCache.run rcfg h) c!"pkg").2 = some p.package :=
  ⟨cached, src 100 (90 * 10 ^ 9 + 5) c!"v2", ⟨src 100 (90 * 10 ^ 9) c!"v1", 1, c!"pkg/package.py"⟩, rfl,
    by unfold Unchanged; decide +kernel, by decide +kernel⟩

/-- And one replaced by a file with an older time, as `cp -p`, `tar` or `git` may do. -/
theorem C45_older_false : ∃ (h : List (RepoCache.Op Nat)) (w : World) (p : Put Nat),
    lastPut c!"pkg" h = some p ∧ ¬Unchanged p.path p.world w ∧
      (RepoCache.get w (RepoCache.run rcfg h) c!"pkg").2 = some p.package :=
  ⟨cached, src 3000 (50 * 10 ^ 9) c!"v0", ⟨src 100 (90 * 10 ^ 9) c!"v1", 1, c!"pkg/package.py"⟩, rfl,
    by unfold Unchanged; decide +kernel, by decide +kernel⟩

/-- And one that was deleted. -/
theorem C45_deleted_false : ∃ (h : List (RepoCache.Op Nat)) (w : World) (p : Put Nat),
    lastPut c!"pkg" h = some p ∧ w.file p.path = none ∧
      (RepoCache.get w (RepoCache.run rcfg h) c!"pkg").2 = some p.package :=
  ⟨cached, ⟨some 3000, fun _ => none⟩, ⟨src 100 (90 * 10 ^ 9) c!"v1", 1, c!"pkg/package.py"⟩, rfl, rfl, by decide +kernel⟩

/-- No entry survives a restart: after every history, a new process over the same directory either fails to start or
misses every key. -/
theorem C45_restart_false (cfg : RepoCache.Config) (h : List (RepoCache.Op P)) :
    restart (RepoCache.run cfg h) = none ∨
      ∃ c, restart (RepoCache.run cfg h) = some c ∧ ∀ w k, (RepoCache.get w c k).2 = none := by
  unfold restart
  rcases mget (RepoCache.run cfg h).disk c!"index" with _ | e
  · exact .inr ⟨_, rfl, fun w k => by simp [RepoCache.get, RepoCache.Cache.new]⟩
  · exact .inl rfl

example : (restart (RepoCache.run rcfg cached)).isSome = true ∧ (RepoCache.run rcfg cached).disk ≠ [] :=
  ⟨by decide +kernel, by intro h; have := congrArg List.length h; revert this; decide +kernel⟩

/-- A package cached under the key `index` keeps every later process from starting. -/
theorem C45_index_key_false : ∃ (cfg : RepoCache.Config) (h : List (RepoCache.Op Nat)), restart (RepoCache.run cfg h) = none :=
  ⟨rcfg, [.put (src 100 (90 * 10 ^ 9) c!"v1") c!"index" 1 c!"pkg/package.py"], by decide +kernel⟩

/-! ## C89 -/

/-- C89 is false: whatever the limit, the cache grows beyond any number of entries. -/
theorem C89_limit_false (cfg : RepoCache.Config) (ht : 5 + cfg.ttl < 2 ^ 64) (n : Nat) :
    ∃ h : List (RepoCache.Op Unit), (RepoCache.run cfg h).index.length > n :=
  ⟨many (n + 1), by rw [many_index cfg ht]; simp⟩

example : ∃ h : List (RepoCache.Op Unit), (RepoCache.run rcfg h).index.length > rcfg.maxEntries :=
  C89_limit_false rcfg (by decide) _

/-! ## C90 -/

/-- C90 within one process: after a cleanup exactly the valid entries remain, and exactly their files. -/
theorem C90_cleanup_partial (cfg : RepoCache.Config) (h : List (RepoCache.Op P)) (w : World) (k : Str) :
    let before := RepoCache.run cfg h
    let after := RepoCache.cleanup w before
    mget after.index k = (mget before.index k).filter (RepoCache.Entry.isValid w) ∧
      mget after.disk k = mget after.index k := by
  have hs := synced_run cfg h
  refine ⟨?_, (synced_cleanup hs).2 k⟩
  rw [cleanup_index]
  rcases he : mget (RepoCache.run cfg h).index k with _ | e
  · simp
  · by_cases hv : RepoCache.Entry.isValid w e = true
    · rw [if_neg (by rw [mem_expired hs.1 he, hv]; simp)]
      simp [Option.filter, hv]
    · rw [if_pos ((mem_expired hs.1 he).mpr (by simpa using hv))]
      simp [Option.filter, hv]

example : (mget (RepoCache.cleanup (src 9000 0 c!"v1") (RepoCache.run rcfg cached)).index c!"pkg").isSome = false ∧
    (mget (RepoCache.cleanup (src 900 0 c!"v1") (RepoCache.run rcfg cached)).index c!"pkg").isSome = true := by decide +kernel

/-- Files left by an earlier process are never removed by a cleanup, however often it runs. -/
theorem C90_restart_false : ∃ (cfg : RepoCache.Config) (h : List (RepoCache.Op Nat)) (c : RepoCache.Cache Nat),
    restart (RepoCache.run cfg h) = some c ∧ ∀ ws : List World,
      (mget (ws.foldl (fun c w => RepoCache.cleanup w c) c).disk c!"pkg").isSome = true := by
  refine ⟨rcfg, cached, (restart (RepoCache.run rcfg cached)).getD .new, by rfl, ?_⟩
  intro ws
  have hgen : ∀ (ws : List World) (c : RepoCache.Cache Nat), c.index = [] → (mget c.disk c!"pkg").isSome = true →
      (mget (ws.foldl (fun c w => RepoCache.cleanup w c) c).disk c!"pkg").isSome = true := by
    intro ws
    induction ws with
    | nil => intro c _ h; exact h
    | cons w ws ih =>
      intro c hi hd
      have : RepoCache.expired w c = [] := by simp [RepoCache.expired, hi]
      refine ih _ (by simp [RepoCache.cleanup, hi]) ?_
      rw [cleanup_disk, this]; simpa using hd
  exact hgen ws _ (by decide +kernel) (by decide +kernel)

/-! ## C91 -/

/-- C91, the lookups: hits and misses add up to the lookups since the last clear. -/
theorem C91_lookups_partial (cfg : RepoCache.Config) (h : List (RepoCache.Op P)) :
    (RepoCache.run cfg h).hits + (RepoCache.run cfg h).misses = lookups h := counts_run cfg h

example : (RepoCache.run rcfg (cached ++ [.get (src 200 (90 * 10 ^ 9) c!"v1") c!"pkg", .get (src 200 0 c!"v1") c!"x"])).hits = 1 := by
  decide +kernel

/-- C91 is false of the entries: a lookup that drops an expired entry does not count it out. -/
theorem C91_entries_false : ∃ (cfg : RepoCache.Config) (h : List (RepoCache.Op Nat)),
    (RepoCache.run cfg h).entries = 1 ∧ (RepoCache.run cfg h).index.length = 0 :=
  ⟨rcfg, cached ++ [.get (src 9000 (90 * 10 ^ 9) c!"v1") c!"pkg"], by decide +kernel, by decide +kernel⟩

end Rez.Props
