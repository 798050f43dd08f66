import Verif.Spec.FileCache
import Mathlib.Data.List.Induction
import Mathlib.Logic.Function.Basic
/-!
# Lemmas about the package cache
-/
namespace Rez.FileCache
open Rez Rez.Spec.FileCache
variable {D : Type} {hash : Str → Nat}

theorem run_snoc (h : List (Op D)) (o : Op D) : run hash (h ++ [o]) = o.run hash (run hash h) := by
  simp [run, List.foldl_append]

theorem putsSince_snoc (path : Str) (h : List (Op D)) (o : Op D) : putsSince path (h ++ [o]) = (match o with
    | .put p e => if p = path then e :: putsSince path h else putsSince path h
    | .remove p => if p = path then [] else putsSince path h
    | .clear => []
    | _ => putsSince path h) := by
  unfold putsSince
  rw [List.foldl_append]
  cases o <;> rfl

theorem foldDel_some {α : Type} (ks : List Nat) {l : List (Nat × α)} {j : Nat} {x : α}
    (h : mget (ks.foldl mdel l) j = some x) : mget l j = some x := by
  induction ks generalizing l with
  | nil => exact h
  | cons k ks ih =>
    have := ih h
    rw [mget_mdel] at this
    split at this
    · cases this
    · exact this

theorem usable_current {w : World} {path : Str} {e : Cached D} : usable w path e = true ↔ Current w path e := by
  unfold usable Current
  rcases w.mtime path with _ | t
  · simp
  · simp only [Cached.isValid]
    have hd : ∀ a b : Nat, (a - b) / 10 ^ 9 > 0 ↔ b + 10 ^ 9 ≤ a := by
      intro a b
      rw [gt_iff_lt, Nat.div_pos_iff]
      omega
    have hexp : (∀ ttl, e.ttl = some ttl → e.cachedAt ≤ w.now ∧ w.now ≤ e.cachedAt + ttl) ↔
        (match e.ttl with
          | none => true
          | some ttl => decide (e.cachedAt ≤ w.now) && decide (w.now - e.cachedAt ≤ ttl)) = true := by
      rcases e.ttl with _ | ttl
      · simp
      · simp
        omega
    rw [hexp]
    simp only [hd]
    split
    · rename_i hc
      simp only [Bool.or_eq_true, Bool.and_eq_true, decide_eq_true_eq] at hc
      simp only [Bool.false_eq_true, Option.some.injEq, false_iff, not_and]
      rintro ⟨t', rfl, h1, h2⟩
      omega
    · rename_i hc
      simp only [Bool.or_eq_true, Bool.and_eq_true, decide_eq_true_eq] at hc
      constructor
      · intro h
        exact ⟨⟨t, rfl, by omega, by omega⟩, h⟩
      · exact fun h => h.2

/-! ## What memory and disk hold -/

/-- what memory and disk hold for a path is its last completed put -/
def Faithful (hash : Str → Nat) (h : List (Op D)) (c : Cache D) : Prop :=
  (∀ p e, mget c.mem.store p = some e → (putsSince p h).head? = some e) ∧
  ∀ p e, mget c.disk (hash p) = some (.whole e) → (putsSince p h).head? = some e

/-- a lookup adds nothing that was not held -/
theorem get_faithful {h : List (Op D)} {c : Cache D} (hf : Faithful hash h c) (w : World) (p : Str) :
    Faithful hash h (get hash w c p).1 := by
  have hmem : ∀ q e, mget (c.mem.get w p).1.store q = some e → mget c.mem.store q = some e := by
    intro q e he
    unfold Mem.get at he
    rcases hm : mget c.mem.store p with _ | e'
    · rw [hm] at he; exact he
    · rw [hm] at he; simp only at he
      split at he
      · exact he
      · simp only [mget_mdel] at he
        split at he
        · cases he
        · exact he
  unfold get
  simp only
  split
  · exact ⟨fun q e he => hf.1 q e (hmem q e he), hf.2⟩
  · split
    · exact ⟨fun q e he => hf.1 q e (hmem q e he), hf.2⟩
    · exact ⟨fun q e he => hf.1 q e (hmem q e he), hf.2⟩
    · rename_i e hd
      split
      · refine ⟨?_, hf.2⟩
        intro q e' he
        simp only [mget_mset] at he
        split at he
        · rename_i hq; subst hq; simp at he; subst he; exact hf.2 q e hd
        · exact hf.1 q e' (hmem q e' he)
      · refine ⟨fun q e he => hf.1 q e (hmem q e he), ?_⟩
        intro q e' he
        simp only [mget_mdel] at he
        split at he
        · cases he
        · exact hf.2 q e' he

theorem faithful_mono {h h' : List (Op D)} (hp : ∀ p, putsSince p h' = putsSince p h) {c : Cache D} (hf : Faithful hash h c) :
    Faithful hash h' c :=
  ⟨fun p e he => by rw [hp]; exact hf.1 p e he, fun p e he => by rw [hp]; exact hf.2 p e he⟩

theorem faithful_run (hi : Function.Injective hash) (h : List (Op D)) : Faithful hash h (run hash h) := by
  induction h using List.reverseRecOn with
  | nil => exact ⟨fun p e he => by simp [run, Cache.new, Mem.new] at he, fun p e he => by simp [run, Cache.new] at he⟩
  | append_singleton h o ih =>
    rw [run_snoc]
    have hempty : ∀ p (e : Cached D), mget (Mem.new : Mem D).store p = some e → (putsSince p h).head? = some e := by
      intro p e he; simp [Mem.new] at he
    rcases o with ⟨path, e⟩ | ⟨w, path⟩ | path | _ | _ | ⟨path, e, a⟩ | gone
    · refine ⟨?_, ?_⟩
      · intro p e' he
        simp only [Op.run, put, mget_mset] at he
        rw [putsSince_snoc]; simp only
        split at he
        · rename_i hp; subst hp; simpa using he
        · rename_i hp; rw [if_neg (Ne.symm hp)]; exact ih.1 p e' he
      · intro p e' he
        simp only [Op.run, put, mget_mset, hi.eq_iff] at he
        rw [putsSince_snoc]; simp only
        split at he
        · rename_i hp; subst hp; simpa using he
        · rename_i hp; rw [if_neg (Ne.symm hp)]; exact ih.2 p e' he
    · exact faithful_mono (fun p => by rw [putsSince_snoc]) (get_faithful ih w path)
    · refine ⟨?_, ?_⟩
      · intro p e' he
        simp only [Op.run, remove, mget_mdel] at he
        rw [putsSince_snoc]; simp only
        split at he
        · cases he
        · rename_i hp; rw [if_neg (Ne.symm hp)]; exact ih.1 p e' he
      · intro p e' he
        simp only [Op.run, remove, mget_mdel, hi.eq_iff] at he
        rw [putsSince_snoc]; simp only
        split at he
        · cases he
        · rename_i hp; rw [if_neg (Ne.symm hp)]; exact ih.2 p e' he
    · exact ⟨fun p e he => by simp [Op.run, clear] at he, fun p e he => by simp [Op.run, clear] at he⟩
    · exact faithful_mono (h := h) (fun p => by rw [putsSince_snoc]) ⟨hempty, ih.2⟩
    · refine faithful_mono (h := h) (fun p => by rw [putsSince_snoc]) ?_
      cases a with
      | before => exact ⟨hempty, ih.2⟩
      | during =>
        refine ⟨hempty, ?_⟩
        intro p e' he
        simp only [Op.run, mget_mset] at he
        split at he
        · simp at he
        · exact ih.2 p e' he
    · refine faithful_mono (h := h) (fun p => by rw [putsSince_snoc]) ⟨hempty, ?_⟩
      intro p e' he
      exact ih.2 p e' (foldDel_some gone he)

theorem get_cases {w : World} {c : Cache D} {p : Str} {e : Cached D} (hg : (get hash w c p).2 = some (some e)) :
    usable w p e = true ∧ (mget c.mem.store p = some e ∨ mget c.disk (hash p) = some (.whole e)) := by
  unfold get at hg
  simp only at hg
  split at hg
  · rename_i e' hm
    simp at hg; subst hg
    unfold Mem.get at hm
    rcases hs : mget c.mem.store p with _ | e''
    · rw [hs] at hm; simp at hm
    · rw [hs] at hm; simp only at hm
      split at hm
      · rename_i hu; simp at hm; subst hm; exact ⟨hu, .inl rfl⟩
      · simp at hm
  · split at hg
    · simp at hg
    · simp at hg
    · rename_i e' hd
      split at hg
      · rename_i hu
        simp at hg; subst hg; exact ⟨hu, .inr hd⟩
      · simp at hg

/-! ## Torn files -/

/-- no cache file is torn -/
def Sound (c : Cache D) : Prop := ∀ n, mget c.disk n ≠ some .torn

theorem get_disk {w : World} {c : Cache D} {p : Str} {n : Nat} {x : OnDisk D}
    (h : mget (get hash w c p).1.disk n = some x) : mget c.disk n = some x := by
  unfold get at h
  simp only at h
  split at h
  · exact h
  · split at h
    · exact h
    · exact h
    · split at h
      · exact h
      · simp only [mget_mdel] at h
        split at h
        · cases h
        · exact h

theorem sound_run {h : List (Op D)} (hn : NoCrash h) : Sound (run hash h) := by
  induction h using List.reverseRecOn with
  | nil => intro n; simp [run, Cache.new]
  | append_singleton h o ih =>
    have ih := ih (fun o ho => hn o (by simp [ho]))
    have ho := hn o (by simp)
    rw [run_snoc]
    intro n hx
    rcases o with ⟨path, e⟩ | ⟨w, path⟩ | path | _ | _ | ⟨path, e, a⟩ | gone
    · simp only [Op.run, put, mget_mset] at hx
      split at hx
      · simp at hx
      · exact ih n hx
    · exact ih n (get_disk hx)
    · simp only [Op.run, remove, mget_mdel] at hx
      split at hx
      · cases hx
      · exact ih n hx
    · simp [Op.run, clear] at hx
    · exact ih n hx
    · exact ho.1 path e a rfl
    · exact ho.2 gone rfl

theorem get_ok {w : World} {c : Cache D} (hs : Sound c) (p : Str) : ∃ r, (get hash w c p).2 = some r := by
  unfold get
  simp only
  split
  · exact ⟨_, rfl⟩
  · split
    · exact ⟨_, rfl⟩
    · rename_i hd; exact absurd hd (hs _)
    · split
      · exact ⟨_, rfl⟩
      · exact ⟨_, rfl⟩

/-- the file of the path is torn, and memory does not have it -/
def Broken (hash : Str → Nat) (path : Str) (c : Cache D) : Prop :=
  mget c.mem.store path = none ∧ mget c.disk (hash path) = some .torn

theorem broken_get {path : Str} {c : Cache D} (hb : Broken hash path c) (w : World) : (get hash w c path).2 = none := by
  unfold get Mem.get
  rw [hb.1]; simp only; rw [hb.2]

theorem broken_op (hi : Function.Injective hash) {path : Str} {c : Cache D} (hb : Broken hash path c) (o : Op D)
    (hl : Leaves path o) : Broken hash path (o.run hash c) := by
  rcases o with ⟨p, e⟩ | ⟨w, p⟩ | p | _ | _ | ⟨p, e, a⟩ | gone
  · have hp : path ≠ p := Ne.symm hl
    exact ⟨by simp only [Op.run, put, mget_mset, if_neg hp]; exact hb.1,
      by simp only [Op.run, put, mget_mset, hi.eq_iff, if_neg hp]; exact hb.2⟩
  · simp only [Op.run]
    have hmem : mget (c.mem.get w p).1.store path = none := by
      unfold Mem.get
      rcases hm : mget c.mem.store p with _ | e'
      · exact hb.1
      · simp only
        split
        · exact hb.1
        · simp only [mget_mdel, hb.1, ite_self]
    unfold get
    simp only
    split
    · exact ⟨hmem, hb.2⟩
    · split
      · exact ⟨hmem, hb.2⟩
      · exact ⟨hmem, hb.2⟩
      · rename_i e hd
        have hp : path ≠ p := by rintro rfl; rw [hb.2] at hd; simp at hd
        split
        · exact ⟨by simp only [mget_mset, if_neg hp]; exact hmem, hb.2⟩
        · exact ⟨hmem, by simp only [mget_mdel, hi.eq_iff, if_neg hp]; exact hb.2⟩
  · have hp : path ≠ p := Ne.symm hl
    exact ⟨by simp only [Op.run, remove, mget_mdel, if_neg hp]; exact hb.1,
      by simp only [Op.run, remove, mget_mdel, hi.eq_iff, if_neg hp]; exact hb.2⟩
  · exact absurd hl (by simp [Leaves])
  · exact ⟨rfl, hb.2⟩
  · have hp : path ≠ p := Ne.symm hl
    cases a with
    | before => exact ⟨rfl, hb.2⟩
    | during => exact ⟨rfl, by simp only [Op.run, mget_mset, hi.eq_iff, if_neg hp]; exact hb.2⟩
  · exact absurd hl (by simp [Leaves])

theorem broken_run (hi : Function.Injective hash) {path : Str} (h : List (Op D)) (hl : ∀ o ∈ h, Leaves path o)
    {c : Cache D} (hb : Broken hash path c) : Broken hash path (h.foldl (Op.run hash) c) := by
  induction h generalizing c with
  | nil => exact hb
  | cons o h ih => exact ih (fun o ho => hl o (by simp [ho])) (broken_op hi hb o (hl o (by simp)))

end Rez.FileCache
