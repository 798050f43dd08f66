import Verif.Lemmas.FileCache
/-!
# The package cache on disk: C46, C92, C93
-/
namespace Rez.Props
open Rez Rez.FileCache Rez.Spec.FileCache
variable {D : Type}

/-! ## Data -/

/-- All sources were modified at `t` nanoseconds. -/
def fsAt (now t : Nat) : FileCache.World := ⟨now, fun _ => some t⟩

/-- An injective hash: the characters as digits. -/
def digits : Str → Nat := fun s => s.foldr (fun c n => c.toNat + 1 + 1200000 * n) 0

theorem digits_injective : Function.Injective digits := by
  intro a
  induction a with
  | nil =>
    intro b h
    cases b with
    | nil => rfl
    | cons d b => simp [digits] at h; omega
  | cons c a ih =>
    intro b h
    cases b with
    | nil => simp [digits] at h
    | cons d b =>
      have hc : ∀ x : Char, x.toNat < 1114112 := by
        intro x
        rcases x.valid with h | ⟨_, h⟩
        · have := h; simp only [Char.toNat, UInt32.toNat] at *; omega
        · have := h; simp only [Char.toNat, UInt32.toNat] at *; omega
      have h' : c.toNat + 1 + 1200000 * digits a = d.toNat + 1 + 1200000 * digits b := h
      have h1 := hc c
      have h2 := hc d
      have hcd : c.toNat = d.toNat := by omega
      have hab : digits a = digits b := by omega
      rw [ih hab]
      congr 1
      exact Char.ext (UInt32.toNat_inj.mp hcd)

/-! ## C46 -/

/-- When the hash tells paths apart, a lookup returns only the last completed put of that path since it was removed,
whatever restarts and crashes lie between.  Missing from C46: hashes that collide, and the errors after a crash. -/
theorem C46_last_put_partial {hash : Str → Nat} (hi : Function.Injective hash) (h : List (FileCache.Op D)) (w : FileCache.World)
    (path : Str) (e : Cached D) (hg : (FileCache.get hash w (FileCache.run hash h) path).2 = some (some e)) :
    (putsSince path h).head? = some e := by
  rcases (get_cases hg).2 with hm | hd
  · exact (faithful_run hi h).1 path e hm
  · exact (faithful_run hi h).2 path e hd

/-- A put, a crash inside the next put before the file is touched, and a lookup by a new process. -/
example : ((FileCache.get digits (fsAt 9 5) (FileCache.run digits
    [.put c!"a" (packageEntry (fsAt 7 5) none c!"a" 1), .put c!"b" (packageEntry (fsAt 7 5) none c!"b" 2),
      .crashPut c!"a" (packageEntry (fsAt 8 5) none c!"a" 3) .before]) c!"a").2.map fun r => r.map Cached.data) =
    some (some 1) := by decide +kernel

/-- As long as no process died inside an operation, a lookup is never an error, whatever the hash. -/
theorem C46_no_error_partial (hash : Str → Nat) (h : List (FileCache.Op D)) (hn : NoCrash h) (w : FileCache.World) (path : Str) :
    ∃ r, (FileCache.get hash w (FileCache.run hash h) path).2 = some r := get_ok (sound_run hn) path

example : NoCrash ([.put c!"a" (packageEntry (fsAt 7 5) none c!"a" 1), .restart, .get (fsAt 8 5) c!"a"] : List (FileCache.Op Nat)) := by
  intro o ho
  simp only [List.mem_cons, List.not_mem_nil, or_false] at ho
  rcases ho with rfl | rfl | rfl <;> simp

/-- In any state, a package just cached is found by its path while it is current. -/
theorem C46_just_put (hash : Str → Nat) (c : FileCache.Cache D) (path : Str) (e : Cached D) (w : FileCache.World)
    (hc : Current w path e) : (FileCache.get hash w (FileCache.put hash c path e) path).2 = some (some e) := by
  have hu := usable_current.mpr hc
  simp only [FileCache.get, Mem.get, FileCache.put, mget_mset, if_true, hu]

/-- And by another process, from disk. -/
theorem C46_persists (hash : Str → Nat) (c : FileCache.Cache D) (path : Str) (e : Cached D) (w : FileCache.World)
    (hc : Current w path e) :
    (FileCache.get hash w (FileCache.Op.run hash (FileCache.put hash c path e) .restart) path).2 = some (some e) := by
  have hu := usable_current.mpr hc
  simp only [FileCache.get, Mem.get, FileCache.Op.run, Mem.new, mget_nil, FileCache.put, mget_mset, if_true, hu]

example : Current (fsAt 9 5) c!"a" (packageEntry (fsAt 7 5) (some 100) c!"a" 1) := by
  refine ⟨⟨5, rfl, by decide, by decide⟩, ?_⟩
  intro ttl ht
  simp [packageEntry, fsAt] at ht ⊢
  omega

/-- In any state, what `put_package` caches is found, with its data, while the source keeps its modification time and the
time to live has not passed. -/
theorem C46_put_package (hash : Str → Nat) (c : FileCache.Cache D) (w w' : FileCache.World) (ttl : Option Nat) (path : Str)
    (data : D) (t : Nat) (h1 : w.mtime path = some t) (h2 : w'.mtime path = some t)
    (hl : ∀ d, ttl = some d → w.now ≤ w'.now ∧ w'.now ≤ w.now + d) :
    (FileCache.get hash w' (FileCache.put hash c path (packageEntry w ttl path data)) path).2.map (fun r => r.map Cached.data) =
      some (some data) := by
  rw [C46_just_put]
  · rfl
  · refine ⟨⟨t, h2, ?_, ?_⟩, hl⟩ <;> simp [packageEntry, h1]

example : (FileCache.get digits (fsAt 90 5) (FileCache.put digits .new c!"a" (packageEntry (fsAt 7 5) (some 100) c!"a" 1)) c!"a").2.map
    (fun r => r.map Cached.data) = some (some 1) :=
  C46_put_package digits .new (fsAt 7 5) (fsAt 90 5) (some 100) c!"a" 1 5 rfl rfl (by intro d hd; simp at hd; subst hd; decide)

/-- C46 is false when two paths have one hash: in a new process the second path finds the package of the first, though
nothing was ever put for it. -/
theorem C46_collision_false (hash : Str → Nat) (p q : Str) (hpq : p ≠ q) (hc : hash p = hash q) :
    ∃ (h : List (FileCache.Op Nat)) (w : FileCache.World) (e : Cached Nat), putsSince q h = [] ∧ e.path = p ∧
      (FileCache.get hash w (FileCache.run hash h) q).2 = some (some e) := by
  refine ⟨[.put p (packageEntry (fsAt 7 5) none p 1), .restart], fsAt 9 5, packageEntry (fsAt 7 5) none p 1, ?_, rfl, ?_⟩
  · simp [putsSince, hpq]
  · have hu : usable (fsAt 9 5) q (packageEntry (fsAt 7 5) none p 1) = true := by simp [usable, fsAt, Cached.isValid, packageEntry]
    simp only [FileCache.get, Mem.get, FileCache.run, List.foldl_cons, List.foldl_nil, FileCache.Op.run, FileCache.put,
      FileCache.Cache.new, Mem.new, mget_nil, mget_mset, hc, if_true, hu]

/-- C46 is false after a crash: when a process dies while a put writes its file, every later lookup of the path is an
error, in every process, until it is put again, removed or cleared. -/
theorem C46_crash_false {hash : Str → Nat} (hi : Function.Injective hash) (before after : List (FileCache.Op D)) (path : Str)
    (e : Cached D) (hl : ∀ o ∈ after, Leaves path o) (w : FileCache.World) :
    (FileCache.get hash w (FileCache.run hash (before ++ .crashPut path e .during :: after)) path).2 = none := by
  simp only [FileCache.run, List.foldl_append, List.foldl_cons]
  refine broken_get (broken_run hi after hl ⟨rfl, ?_⟩) w
  simp [FileCache.Op.run, mget_mset]

example : (FileCache.get digits (fsAt 9 5) (FileCache.run digits
    [.put c!"a" (packageEntry (fsAt 7 5) none c!"a" 1), .crashPut c!"a" (packageEntry (fsAt 8 5) none c!"a" 3) .during,
      .get (fsAt 9 5) c!"a", .restart, .put c!"b" (packageEntry (fsAt 9 5) none c!"b" 4)]) c!"a").2.isNone = true := by
  have h := C46_crash_false digits_injective [.put c!"a" (packageEntry (fsAt 7 5) none c!"a" 1)]
    [.get (fsAt 9 5) c!"a", .restart, .put c!"b" (packageEntry (fsAt 9 5) none c!"b" 4)] c!"a"
    (packageEntry (fsAt 8 5) none c!"a" 3) (by
      intro o ho
      simp only [List.mem_cons, List.not_mem_nil, or_false] at ho
      rcases ho with rfl | rfl | rfl <;> simp [Leaves]) (fsAt 9 5)
  exact congrArg Option.isNone h

/-! ## C92 -/

/-- A package is served only while it is not expired, and while its source exists with a modification time less than a
second from the recorded one; in any state.  Missing from C92: changes within that second. -/
theorem C92_current_partial (hash : Str → Nat) (c : FileCache.Cache D) (w : FileCache.World) (path : Str) (e : Cached D)
    (hg : (FileCache.get hash w c path).2 = some (some e)) : Current w path e := usable_current.mp (get_cases hg).1

example : (FileCache.get digits (fsAt 9 (5 + 2 * 10 ^ 9)) (FileCache.run digits [.put c!"a" (packageEntry (fsAt 7 5) none c!"a" 1)]) c!"a").2.map
    (fun r => r.map Cached.data) = some none := by decide +kernel

/-- C92 is false: a source modified less than a second after the recorded time is served in its old form. -/
theorem C92_subsecond_false (hash : Str → Nat) : ∃ (c : FileCache.Cache Nat) (w w' : FileCache.World) (path : Str) (t t' : Nat),
    c = FileCache.run hash [.put path (packageEntry w none path 1)] ∧ w.mtime path = some t ∧ w'.mtime path = some t' ∧ t < t' ∧
      (FileCache.get hash w' c path).2.map (fun r => r.map Cached.data) = some (some 1) := by
  refine ⟨_, fsAt 7 5, fsAt 10 9, c!"a", 5, 9, rfl, rfl, rfl, by decide, ?_⟩
  have hu : usable (fsAt 10 9) c!"a" (packageEntry (fsAt 7 5) none c!"a" 1) = true := by decide +kernel
  simp only [FileCache.get, Mem.get, FileCache.run, List.foldl_cons, List.foldl_nil, FileCache.Op.run, FileCache.put,
    FileCache.Cache.new, Mem.new, mget_mset, if_true, hu]
  rfl

/-! ## C93 -/

/-- C93 is false: a lookup of a stale entry counts as a hit and as a miss. -/
theorem C93_stale_false : ∃ (h : List (FileCache.Op Nat)) (w : FileCache.World),
    let c := (FileCache.get digits w (FileCache.run digits h) c!"a").1
    c.mem.hits = 1 ∧ c.mem.misses = 1 ∧ ∀ w p, FileCache.Op.get w p ∉ h :=
  ⟨[.put c!"a" (packageEntry (fsAt 7 5) (some 1) c!"a" 1)], fsAt 100 5, by decide +kernel, by decide +kernel, by simp⟩

/-- And a package served from disk counts as a miss only. -/
theorem C93_disk_false : ∃ (h : List (FileCache.Op Nat)) (w : FileCache.World),
    let r := FileCache.get digits w (FileCache.run digits h) c!"a"
    (r.2.map fun x => x.map Cached.data) = some (some 1) ∧ r.1.mem.hits = 0 ∧ r.1.mem.misses = 1 :=
  ⟨[.put c!"a" (packageEntry (fsAt 7 5) none c!"a" 1), .restart], fsAt 100 5, by decide +kernel, by decide +kernel, by decide +kernel⟩

/-- What holds: a lookup not served from memory is one miss, and one served from memory is one hit and no miss. -/
theorem C93_memory_partial (w : FileCache.World) (m : Mem D) (path : Str) :
    ((Mem.get w m path).2.isSome = true → (Mem.get w m path).1.hits = m.hits + 1 ∧ (Mem.get w m path).1.misses = m.misses) ∧
    ((Mem.get w m path).2 = none → (Mem.get w m path).1.misses = m.misses + 1) := by
  unfold Mem.get
  rcases mget m.store path with _ | e
  · simp
  · simp only
    split <;> simp

example : (Mem.get (fsAt 9 5) (FileCache.run digits [.put c!"a" (packageEntry (fsAt 7 5) none c!"a" 1)]).mem c!"a").2.isSome = true := by
  decide +kernel

end Rez.Props
