import Verif.Spec.Bundle
import Verif.Props.BuildCopy
import Verif.Props.Shell
/-!
# C171 to C174: bundles
-/
namespace Rez.Props
open Rez Rez.Files Rez.Spec.Files Rez.Build Rez.Build.Spec Rez.Bundle Rez.Bundle.Spec

/-! ## C171: what is asked for -/

namespace BundleLemmas

theorem looks_iff (s : Str) : looksLikePath s = true ↔ IsPath s := by
  unfold looksLikePath IsPath
  simp only [Bool.or_eq_true, Bool.and_eq_true, decide_eq_true_eq, beq_iff_eq, List.contains_iff_mem]
  constructor
  · rintro ((((⟨h1, h2⟩ | h) | h) | h) | h)
    · right; right
      match s, h2 with
      | c :: d :: r, h2 =>
        simp only [List.getElem?_cons_succ, List.getElem?_cons_zero, Option.some.injEq] at h2
        exact ⟨c, r, by rw [h2], h1⟩
    · left; exact List.mem_of_mem_head? h
    · right; left; exact List.mem_of_mem_head? h
    · left; exact h
    · right; left; exact h
  · rintro (h | h | ⟨c, r, rfl, h⟩)
    · exact Or.inl (Or.inr h)
    · exact Or.inr h
    · exact Or.inl (Or.inl (Or.inl (Or.inl ⟨h, rfl⟩)))

theorem last_push {l : List Str} {x : Str} (h : l.getLast? = some x) : l = l.dropLast ++ [x] := by
  obtain ⟨m, rfl⟩ := List.getLast?_eq_some_iff.1 h
  simp

end BundleLemmas
open BundleLemmas

/-- C171: the requests and the directory of a bundle.  The directory is the one of `--output`; without it, it is the last
argument if that is a path; else none is given.  The rest are the requests, and there is at least one. -/
theorem C171_request (a : Args) (rs : List Str) (out : Option Str) : request a = some (rs, out) ↔
    rs ≠ [] ∧ ((∃ o, a.output = some o ∧ out = some o ∧ rs = a.packages) ∨
      (a.output = none ∧ ∃ x, out = some x ∧ IsPath x ∧ a.packages = rs ++ [x]) ∨
      (a.output = none ∧ out = none ∧ rs = a.packages ∧ ∀ x, a.packages.getLast? = some x → ¬ IsPath x)) := by
  rcases a with ⟨pk, o, nm, sk⟩
  unfold request
  dsimp only
  rcases hl : pk.getLast? with _ | x
  · have hnil : pk = [] := List.getLast?_eq_none_iff.1 hl
    subst hnil
    constructor
    · intro h; cases o <;> simp at h
    · rintro ⟨h0, ⟨o', _, _, h⟩ | ⟨_, x, _, _, h⟩ | ⟨_, _, h, _⟩⟩
      · exact absurd h h0
      · simp at h
      · exact absurd h h0
  · have hne : pk ≠ [] := by rintro rfl; simp at hl
    have hp := last_push hl
    cases o with
    | some o =>
      simp only [Option.some.injEq, Prod.mk.injEq]
      constructor
      · rintro ⟨rfl, rfl⟩; exact ⟨hne, Or.inl ⟨o, rfl, rfl, rfl⟩⟩
      · rintro ⟨_, ⟨o', rfl, rfl, rfl⟩ | ⟨h, _⟩ | ⟨h, _⟩⟩
        · exact ⟨rfl, rfl⟩
        · cases h
        · cases h
    | none =>
      dsimp only
      by_cases hx : looksLikePath x = true
      · rw [if_pos hx]
        have hx' := (looks_iff x).1 hx
        constructor
        · intro h
          split at h
          · cases h
          · rename_i he
            simp only [Option.some.injEq, Prod.mk.injEq] at h
            obtain ⟨rfl, rfl⟩ := h
            exact ⟨by simpa using he, Or.inr (Or.inl ⟨rfl, x, rfl, hx', hp⟩)⟩
        · rintro ⟨h0, ⟨o', h, _⟩ | ⟨_, y, rfl, _, h⟩ | ⟨_, _, _, h⟩⟩
          · cases h
          · rw [h] at hl
            simp only [List.getLast?_append, List.getLast?_singleton, Option.some_or, Option.some.injEq] at hl
            subst hl
            rw [h, List.dropLast_concat, if_neg (by simpa using h0)]
          · exact absurd hx' (h x rfl)
      · rw [if_neg hx]
        have hx' : ¬ IsPath x := fun h => hx ((looks_iff x).2 h)
        simp only [Option.some.injEq, Prod.mk.injEq]
        constructor
        · rintro ⟨rfl, rfl⟩
          exact ⟨hne, Or.inr (Or.inr ⟨by trivial, by trivial, rfl, fun y hy => by cases hy; exact hx'⟩)⟩
        · rintro ⟨h0, ⟨o', h, _⟩ | ⟨_, y, rfl, hy, h⟩ | ⟨_, rfl, rfl, _⟩⟩
          · cases h
          · rw [h] at hl
            simp only [List.getLast?_append, List.getLast?_singleton, Option.some_or, Option.some.injEq] at hl
            subst hl
            exact absurd hy hx'
          · exact ⟨rfl, rfl⟩

/-- C171: without a request, or with one that is none, the command fails and changes nothing. -/
theorem C171_refused (w : World) (a : Args) (h : ∀ rs out, request a = some (rs, out) → ∃ r ∈ rs, w.parses r = false) :
    bundle w a = ([], .failed) := by
  unfold bundle
  rcases hr : request a with _ | ⟨rs, out⟩
  · rfl
  · obtain ⟨r, hr1, hr2⟩ := h rs out hr
    dsimp only
    rw [if_neg]
    simp only [List.all_eq_true]
    intro hc
    rw [hc r hr1] at hr2; cases hr2

example : request ⟨[c!"foo-1", c!"bar", c!"out/b"], none, none, false⟩ = some ([c!"foo-1", c!"bar"], some c!"out/b") := by
  decide
example : request ⟨[c!"out/b"], none, none, false⟩ = none := by decide

/-- C171 is false of the names of bundles: those of different requests are the same, so that the second bundle is made in
the directory of the first. -/
theorem C171_name_false : bundleName none [c!"foo-1.0"] = bundleName none [c!"foo", c!"1-0"] ∧
    bundleName none [c!"foo-1.0"] = c!"foo_1_0" := ⟨by decide, by decide⟩

/-- C171: the name without `--name`: that of the requests with an underscore between them, and for each `-` and `.`. -/
theorem C171_name (rs : List Str) : bundleName none rs =
    joinWith c!"_" (rs.map fun r => RexShell.replaceChar '.' c!"_" (RexShell.replaceChar '-' c!"_" r)) := by
  unfold bundleName
  have : ∀ s : Str, (s.map fun c => if c = '-' ∨ c = '.' then '_' else c) =
      RexShell.replaceChar '.' c!"_" (RexShell.replaceChar '-' c!"_" s) := by
    intro s
    unfold RexShell.replaceChar
    induction s with
    | nil => rfl
    | cons c s ih =>
      rw [List.map_cons, ih, List.flatMap_cons, List.flatMap_append]
      by_cases h1 : c = '-'
      · subst h1; simp
      · by_cases h2 : c = '.'
        · subst h2; simp
        · simp [h1, h2]
  simp only [Option.getD_none, this]

/-! ## C172: the packages -/

namespace BundleLemmas
open BuildCopyLemmas

theorem next_done {fs : FS} {a : List Step × End} {k : FS → List Step × End} {st : List Step}
    (h : next fs a k = (st, .done)) : ∃ s1 s2, a = (s1, .done) ∧ k (run fs s1) = (s2, .done) ∧ st = s1 ++ s2 := by
  rcases a with ⟨s1, e⟩
  unfold next at h
  cases e with
  | done =>
    simp only [Prod.mk.injEq] at h
    exact ⟨s1, (k (run fs s1)).1, rfl, Prod.ext rfl h.2, h.1.symm⟩
  | failed => simp at h
  | unfinished => simp at h

theorem next_of {fs : FS} {a : List Step × End} {k : FS → List Step × End} {s1 s2 : List Step} {e : End}
    (h1 : a = (s1, .done)) (h2 : k (run fs s1) = (s2, e)) : next fs a k = (s1 ++ s2, e) := by
  subst h1
  unfold next
  simp [h2]

theorem next_near {d : Path} {fs : FS} {a : List Step × End} {k : FS → List Step × End} (h1 : ∀ s ∈ a.1, Near d s)
    (h2 : ∀ fs, ∀ s ∈ (k fs).1, Near d s) : ∀ s ∈ (next fs a k).1, Near d s := by
  rcases a with ⟨s1, e⟩
  unfold next
  intro s hs
  cases e with
  | done =>
    rcases List.mem_append.1 hs with h | h
    · exact h1 s h
    · exact h2 _ s h
  | failed => exact h1 s hs
  | unfinished => exact h1 s hs

theorem mkdirAll_near (d : Path) : ∀ s ∈ mkdirAll d, Near d s := by
  intro s hs
  unfold mkdirAll at hs
  obtain ⟨q, hq, rfl⟩ := List.mem_map.1 hs
  exact Or.inr ⟨q, (List.mem_inits q d).1 hq, rfl⟩

theorem makeAll_near (fs : FS) (d : Path) : ∀ s ∈ (Bundle.makeAll fs d).1, Near d s := by
  unfold Bundle.makeAll
  split
  · intro s hs; simp at hs
  · exact mkdirAll_near d

theorem writeFile_near (fs : FS) (d : Path) (c : Str) : ∀ s ∈ (Bundle.writeFile fs d c).1, Near d s := by
  unfold Bundle.writeFile
  split
  · intro s hs; simp at hs
  · intro s hs
    simp only [List.mem_cons, List.not_mem_nil, or_false] at hs
    rcases hs with rfl | rfl <;> exact Or.inl List.prefix_rfl

theorem verText_plain {p : Pkg} {v : Str} (h : p.version = some v) : verText p = v := by simp [verText, h]

theorem home_plain (dir : Path) {p : Pkg} (h : Component p.name) (hv : Component (verText p)) :
    home dir p = dir ++ [c!"packages", p.name, verText p] := by
  unfold home
  rw [FilesLemmas.join_two _ h hv]
  simp

theorem copyPkg_near (w : World) (skip : Bool) (dir : Path) (fs : FS) (p : Pkg) :
    ∀ s ∈ (copyPkg w skip dir fs p).1, Near (home dir p) s := by
  unfold copyPkg
  split
  · intro s hs; simp at hs
  · cases Bundle.findDir fs w.paths p.name (verText p) with
    | none => intro s hs; simp at hs
    | some src =>
      have := dir_near w.order (fun _ => false) w.depth fs src (home dir p)
      dsimp only
      rcases hc : copyDir w.order (fun _ => false) w.depth fs src (home dir p) with ⟨s, e⟩
      rw [hc] at this
      cases e <;> exact this

theorem copyAll_near (w : World) (skip : Bool) (dir : Path) (l : List Pkg) (fs : FS) :
    ∀ s ∈ (copyAll w skip dir fs l).1, ∃ p ∈ l, Near (home dir p) s := by
  induction l generalizing fs with
  | nil => intro s hs; simp [copyAll] at hs
  | cons p l ih =>
    unfold copyAll next
    have h1 := copyPkg_near w skip dir fs p
    rcases hc : copyPkg w skip dir fs p with ⟨s1, e⟩
    rw [hc] at h1
    intro s hs
    cases e with
    | done =>
      rcases List.mem_append.1 hs with h | h
      · exact ⟨p, List.mem_cons_self, h1 s h⟩
      · obtain ⟨q, hq, hn⟩ := ih _ s h
        exact ⟨q, List.mem_cons_of_mem _ hq, hn⟩
    | failed => exact ⟨p, List.mem_cons_self, h1 s hs⟩
    | unfinished => exact ⟨p, List.mem_cons_self, h1 s hs⟩

theorem scripts_near (fs : FS) (dir : Path) (out : Str) (l : List Pkg) : ∀ s ∈ (scripts fs dir out l).1, Near dir s := by
  unfold scripts
  exact next_near (fun s hs => near_mono (List.prefix_append _ _) (writeFile_near _ _ _ s hs)) fun fs =>
    next_near (fun s hs => near_mono (List.prefix_append _ _) (writeFile_near _ _ _ s hs)) fun fs s hs =>
      near_mono (List.prefix_append _ _) (writeFile_near _ _ _ s hs)

theorem make_near (w : World) (skip : Bool) (rs : List Str) (name out : Str) (l : List Pkg)
    (hl : ∀ p ∈ l, Component p.name ∧ Component (verText p)) :
    ∀ s ∈ (make w skip rs name out l).1, Near (join w.cwd out) s := by
  unfold make
  refine next_near (makeAll_near _ _) fun fs => next_near (fun s hs => near_mono (List.prefix_append _ _) (makeAll_near _ _ s hs))
    fun fs => ?_
  refine next_near (fun s hs => ?_) fun fs => next_near (fun s hs => near_mono (List.prefix_append _ _) (writeFile_near _ _ _ s hs))
    fun fs => next_near (fun s hs => near_mono (List.prefix_append _ _) (writeFile_near _ _ _ s hs)) fun fs =>
      next_near (fun s hs => near_mono (List.prefix_append _ _) (writeFile_near _ _ _ s hs)) fun fs => scripts_near _ _ _ _
  obtain ⟨p, hp, hn⟩ := copyAll_near _ _ _ _ _ s hs
  refine near_mono ?_ hn
  rw [home_plain _ (hl p hp).1 (hl p hp).2]
  exact List.prefix_append _ _

theorem component_unknown : Component c!"unknown" := ⟨by decide, by decide, by decide⟩

end BundleLemmas
open BundleLemmas

/-- C172: a bundle, finished or not, wherever it is stopped, changes nothing outside its directory, but for directories that
lead to it: the packages that it copies stay as they are. -/
theorem C172_within (w : World) (a : Args) (rs : List Str) (out : Option Str) (hr : request a = some (rs, out))
    (hl : ∀ l, w.resolve rs = some l → ∀ p ∈ l, Component p.name ∧ ∀ v, p.version = some v → Component v) (pre : List Step)
    (hpre : Stops (bundle w a).1 pre) :
    Within w.fs (join w.cwd (outText out (bundleName a.name rs))) (run w.fs pre) := by
  refine BuildCopyLemmas.run_near (fun s hs => ?_) w.fs
  have hs' := hpre.subset hs
  unfold bundle at hs'
  rw [hr] at hs'
  dsimp only at hs'
  split at hs'
  · refine make_near w _ _ _ _ _ (fun p hp => ?_) s hs'
    cases hq : w.resolve rs with
    | none => rw [hq] at hp; simp at hp
    | some l =>
      rw [hq] at hp
      have := hl l hq p hp
      refine ⟨this.1, ?_⟩
      unfold verText
      cases hv : p.version with
      | none => exact component_unknown
      | some v => exact this.2 v hv
  · simp at hs'

namespace BundleLemmas
open BuildCopyLemmas

/-- Steps near directories apart from `e` leave it alone. -/
theorem apart_keeps {e : Path} {st : List Step} (h : ∀ s ∈ st, ∃ d, Apart e d ∧ Near d s) (fs : FS) (r : Path) :
    mget (run fs st) (e ++ r) = mget fs (e ++ r) := by
  induction st generalizing fs with
  | nil => rfl
  | cons s st ih =>
    obtain ⟨d, hd, hn⟩ := h s List.mem_cons_self
    have h1 := near_source hd (steps := [s]) (by simpa using hn) fs r
    have h2 := ih (fun t ht => h t (List.mem_cons_of_mem _ ht)) (s.apply fs)
    show mget (run (s.apply fs) st) _ = _
    rw [h2]; exact h1

theorem apart_same {d : Path} {a b : Path} (hl : a.length = b.length) (h : a ≠ b) : Apart (d ++ a) (d ++ b) := by
  refine ⟨fun hc => h ?_, fun hc => h ?_⟩
  · have := (List.prefix_append_right_inj d).1 hc
    exact this.eq_of_length hl
  · have := (List.prefix_append_right_inj d).1 hc
    exact (this.eq_of_length hl.symm).symm

theorem apart_head {d : Path} {x y : Str} (h : x ≠ y) (a b : Path) : Apart (d ++ x :: a) (d ++ y :: b) := by
  refine ⟨fun hc => ?_, fun hc => ?_⟩
  · have := (List.prefix_append_right_inj d).1 hc
    exact h (List.cons_prefix_cons.1 this).1
  · have := (List.prefix_append_right_inj d).1 hc
    exact h (List.cons_prefix_cons.1 this).1.symm

theorem apart_below {b d : Path} (h : Apart b d) (r s : Path) : Apart (b ++ r) (d ++ s) := by
  refine ⟨fun hc => ?_, fun hc => ?_⟩
  · rcases List.prefix_or_prefix_of_prefix ((List.prefix_append b r).trans hc) (List.prefix_append d s) with h1 | h1
    · exact h.1 h1
    · exact h.2 h1
  · rcases List.prefix_or_prefix_of_prefix ((List.prefix_append d s).trans hc) (List.prefix_append b r) with h1 | h1
    · exact h.2 h1
    · exact h.1 h1

/-- The directory of a package of a repository is the one that is found. -/
theorem findDir_source {fs0 fs : FS} {paths : List Path} {p : Pkg} {v : Str} {src : Path} (hn : Component p.name) (hv : Component v)
    (hs : Source fs0 paths p v src) (hk : ∀ b ∈ paths, ∀ r, mget fs (b ++ r) = mget fs0 (b ++ r)) :
    Bundle.findDir fs paths p.name v = some src := by
  obtain ⟨pre, b, post, rfl, rfl, hd, hno⟩ := hs
  unfold Bundle.findDir
  rw [List.map_append, List.find?_append]
  have h1 : List.find? (fun p => (mget fs p).isSome) (pre.map fun b => join (join b p.name) v) = none := by
    rw [List.find?_eq_none]
    intro q hq
    obtain ⟨c, hc, rfl⟩ := List.mem_map.1 hq
    rw [FilesLemmas.join_two _ hn hv, hk c (by simp [hc]), hno c hc]
    simp
  rw [h1, List.map_cons, List.find?_cons_of_pos]
  · rw [FilesLemmas.join_two _ hn hv]; rfl
  · rw [FilesLemmas.join_two _ hn hv, hk b (by simp), hd]; rfl

/-- What holds before a package is copied. -/
structure Ready (w : World) (dir : Path) (fs0 fs : FS) (l : List Pkg) : Prop where
  ok : Ok fs
  repos : ∀ b ∈ w.paths, ∀ r, mget fs (b ++ r) = mget fs0 (b ++ r)
  top : mget fs (dir ++ [c!"packages"]) = some .dir
  way : ∀ n, mget fs (dir ++ [c!"packages", n]) = none ∨ mget fs (dir ++ [c!"packages", n]) = some .dir
  free : ∀ p ∈ l, ∀ r, mget fs (home dir p ++ r) = none

/-- What the packages have to be. -/
structure Fit (w : World) (dir : Path) (fs0 : FS) (l : List Pkg) : Prop where
  plain : ∀ p ∈ l, Plain p
  once : l.Nodup
  apart : ∀ b ∈ w.paths, Apart b dir
  source : ∀ p ∈ l, ∀ v, p.version = some v → ∃ src, Source fs0 w.paths p v src ∧ OnlyFiles fs0 src ∧
    ∀ r, (mget fs0 (src ++ r)).isSome → r.length < w.depth

theorem home_of (dir : Path) {p : Pkg} (h : Plain p) : home dir p = dir ++ [c!"packages", p.name, verText p] := by
  obtain ⟨v, hv, hc⟩ := h.version
  exact home_plain dir h.name (by rw [verText_plain hv]; exact hc)

theorem homes_apart (dir : Path) {p q : Pkg} (hp : Plain p) (hq : Plain q) (h : p ≠ q) : Apart (home dir p) (home dir q) := by
  rw [home_of dir hp, home_of dir hq]
  refine apart_same rfl fun hc => h ?_
  simp only [List.cons.injEq, true_and, and_true] at hc
  obtain ⟨v, hv, _⟩ := hp.version
  obtain ⟨u, hu, _⟩ := hq.version
  rw [verText_plain hv, verText_plain hu] at hc
  rcases p with ⟨n, pv⟩
  rcases q with ⟨m, qv⟩
  simp only at hv hu hc ⊢
  rw [hv, hu, hc.1, hc.2]

theorem source_in {fs : FS} {paths : List Path} {p : Pkg} {v : Str} {src : Path} (h : Source fs paths p v src) :
    ∃ b ∈ paths, src = b ++ [p.name, v] ∧ mget fs src = some .dir := by
  obtain ⟨pre, b, post, rfl, rfl, hd, _⟩ := h
  exact ⟨b, by simp, rfl, hd⟩

theorem copyAll_good (w : World) (dir : Path) (ho : ListsAll w.order) (fs0 : FS) (l : List Pkg) (hf : Fit w dir fs0 l) (fs : FS)
    (hr : Ready w dir fs0 fs l) :
    ∃ st, copyAll w false dir fs l = (st, .done) ∧ Ok (run fs st) ∧
      ∀ p ∈ l, ∀ v src, p.version = some v → Source fs0 w.paths p v src →
        ∀ r, mget (run fs st) (home dir p ++ r) = mget fs0 (src ++ r) := by
  induction l generalizing fs with
  | nil => exact ⟨[], rfl, hr.ok, fun p hp => by simp at hp⟩
  | cons p l ih =>
    have hp : Plain p := hf.plain p List.mem_cons_self
    obtain ⟨v, hv, hcv⟩ := hp.version
    obtain ⟨src, hs, honly, hdeep⟩ := hf.source p List.mem_cons_self v hv
    have hhome := home_of dir hp
    have hver := verText_plain hv
    have hfind := findDir_source hp.name hcv hs hr.repos
    obtain ⟨b, hb, hsrc, hsd⟩ := source_in hs
    have hsame : ∀ r, mget fs (src ++ r) = mget fs0 (src ++ r) := fun r => by
      rw [hsrc, List.append_assoc]; exact hr.repos b hb _
    have hap : Apart src (home dir p) := by
      rw [hsrc, hhome]; exact apart_below (hf.apart b hb) _ _
    have hdepth : ∃ n, w.depth = n + 1 := by
      have := hdeep [] (by rw [List.append_nil, hsd]; rfl)
      exact ⟨w.depth - 1, by simp at this; omega⟩
    obtain ⟨n, hn⟩ := hdepth
    have hblock : ¬ blocked fs (home dir p) = true := by
      have : blocked fs (home dir p) = false := by
        unfold blocked
        rw [List.any_eq_false]
        intro q hq
        have hq' := (List.mem_inits q _).1 hq
        rw [hhome] at hq'
        have e1 : dir ++ [c!"packages", p.name, verText p] = (dir ++ [c!"packages", p.name]) ++ [verText p] := by simp
        have e2 : dir ++ [c!"packages", p.name] = (dir ++ [c!"packages"]) ++ [p.name] := by simp
        rw [e1] at hq'
        rcases List.prefix_concat_iff.1 hq' with h | h
        · subst h
          have := hr.free p List.mem_cons_self []
          rw [List.append_nil, hhome, e1] at this
          rw [this]; simp
        · rw [e2] at h
          rcases List.prefix_concat_iff.1 h with h | h
          · subst h
            rcases hr.way p.name with h | h
            · rw [e2] at h; rw [h]; simp
            · rw [e2] at h; rw [h]; simp
          · by_cases hqe : q = dir ++ [c!"packages"]
            · rw [hqe, hr.top]; simp
            · rw [hr.ok.parents _ q h hqe (by rw [hr.top]; rfl)]; simp
      simp [this]
    obtain ⟨s, k, hc⟩ := dir_done ho (fun _ => false) n fs src (home dir p) hap hr.ok
      (fun r h => by have := hdeep r (by rw [← hsame]; exact h); omega)
      (fun x r e _ he => honly (x :: r) e (by rw [← hsame]; exact he)) hblock
      (fun x r => hr.free p List.mem_cons_self _)
    have hg := dir_good ho _ _ fs src (home dir p) s k hap hr.ok hc
    have hnear : ∀ t ∈ s, Near (home dir p) t := by
      have := dir_near w.order (fun _ => false) (n + 1) fs src (home dir p)
      rw [hc] at this
      exact this
    have hpkg : copyPkg w false dir fs p = (s, .done) := by
      unfold copyPkg
      rw [if_neg (by simp), hver, hfind]
      dsimp only
      rw [hn, hc]
    have hwithin := run_near hnear fs
    have hrep : ∀ b ∈ w.paths, ∀ r, mget (run fs s) (b ++ r) = mget fs0 (b ++ r) := fun b hb r => by
      have hab : Apart b (home dir p) := by
        rw [hhome]
        have := apart_below (hf.apart b hb) [] [c!"packages", p.name, verText p]
        rwa [List.append_nil] at this
      rw [near_source hab hnear]; exact hr.repos b hb r
    have hnp : p ∉ l := (List.nodup_cons.1 hf.once).1
    have hready : Ready w dir fs0 (run fs s) l := by
      refine ⟨hg.ok, hrep, ?_, ?_, ?_⟩
      · refine hg.ok.parents (home dir p) _ ?_ ?_ (by rw [hg.dir]; rfl)
        · rw [hhome]; exact ⟨[p.name, verText p], by simp⟩
        · rw [hhome]; simp
      · intro m
        rcases hwithin (dir ++ [c!"packages", m]) (by
          rw [hhome]; intro hc
          have := hc.length_le
          simp at this) with h | ⟨_, _, h⟩
        · rw [h]; exact hr.way m
        · exact Or.inr h
      · intro q hq r
        have hqp : q ≠ p := fun hc => hnp (hc ▸ hq)
        rw [near_source (homes_apart dir (hf.plain q (List.mem_cons_of_mem _ hq)) hp hqp) hnear]
        exact hr.free q (List.mem_cons_of_mem _ hq) r
    obtain ⟨st, h1, h2, h3⟩ := ih ⟨fun q hq => hf.plain q (List.mem_cons_of_mem _ hq), (List.nodup_cons.1 hf.once).2, hf.apart,
      fun q hq => hf.source q (List.mem_cons_of_mem _ hq)⟩ (run fs s) hready
    refine ⟨s ++ st, ?_, by rw [FilesLemmas.run_append]; exact h2, ?_⟩
    · unfold copyAll
      exact next_of hpkg h1
    · intro q hq v' src' hv' hs' r
      rw [FilesLemmas.run_append]
      rcases List.mem_cons.1 hq with rfl | hq
      · have hstn := copyAll_near w false dir l (run fs s)
        rw [h1] at hstn
        rw [apart_keeps (fun t ht => by
          obtain ⟨q', hq', hn'⟩ := hstn t ht
          exact ⟨home dir q', homes_apart dir hp (hf.plain q' (List.mem_cons_of_mem _ hq')) (fun hc => hnp (hc ▸ hq')), hn'⟩)]
        have hvv : v' = v := by rw [hv] at hv'; exact (Option.some.inj hv').symm
        subst hvv
        have hfind' := findDir_source hp.name hcv hs' hr.repos
        rw [hfind] at hfind'
        cases Option.some.inj hfind'
        cases r with
        | nil => rw [List.append_nil, List.append_nil, hg.dir, hsd]
        | cons x r =>
          rw [hg.get]
          by_cases hsome : (mget fs (src ++ x :: r)).isSome
          · rw [if_pos ⟨rfl, hsome⟩, hsame]
          · rw [if_neg (fun hc => hsome hc.2), hr.free q List.mem_cons_self, ← hsame]
            cases hm : mget fs (src ++ x :: r) with
            | none => rfl
            | some e => rw [hm] at hsome; simp at hsome
      · exact h3 q hq v' src' hv' hs' r

/-- Writing a file where there is no directory. -/
theorem writeFile_ok {fs : FS} {p : Path} {c : Str} (h : mget fs p ≠ some .dir) :
    Bundle.writeFile fs p c = ([.create p, .write p (.file c)], .done) := by
  unfold Bundle.writeFile; rw [if_neg h]

theorem write_get (fs : FS) (p : Path) (c : Str) (q : Path) :
    mget (run fs [.create p, .write p (.file c)]) q = if q = p then some (.file c) else mget fs q := by
  simp only [run, List.foldl_cons, List.foldl_nil, Step.apply, mget_mset]
  split <;> rfl

end BundleLemmas
open BundleLemmas

/-- C172: a bundle of packages that resolve and lie in the repositories as directories of files, made in a directory that is
new and apart from the repositories: the command succeeds, and the bundle holds each package exactly as its repository
does.

Full statement: of every bundle that succeeds.  It is false: see `C172_unresolved_false` and those after it.  `depth` only has
to be deep enough for the directories of the packages. -/
theorem C172_copied_partial (w : World) (ho : ListsAll w.order) (a : Args) (rs : List Str) (out : Option Str) (l : List Pkg)
    (hr : request a = some (rs, out)) (hparse : ∀ r ∈ rs, w.parses r = true) (hskip : a.skipCopy = false)
    (hl : w.resolve rs = some l) (hplain : ∀ p ∈ l, Plain p) (honce : l.Nodup) (hok : Ok w.fs)
    (dir : Path) (hdir : dir = join w.cwd (outText out (bundleName a.name rs))) (hapart : ∀ b ∈ w.paths, Apart b dir)
    (hfree : Gone w.fs dir) (hway : ∀ q, q <+: dir → q ≠ dir → mget w.fs q = none ∨ mget w.fs q = some .dir)
    (hsource : ∀ p ∈ l, ∀ v, p.version = some v → ∃ src, Source w.fs w.paths p v src ∧ OnlyFiles w.fs src ∧
      ∀ r, (mget w.fs (src ++ r)).isSome → r.length < w.depth) :
    ∃ steps, bundle w a = (steps, .done) ∧ ∀ p ∈ l, ∀ v src, p.version = some v → Source w.fs w.paths p v src →
      Same w.fs src (run w.fs steps) (dir ++ [c!"packages", p.name, v]) := by
  have hb1 : ¬ blocked w.fs dir = true := by
    have : blocked w.fs dir = false := by
      unfold blocked
      rw [List.any_eq_false]
      intro q hq
      have hq' := (List.mem_inits q _).1 hq
      by_cases hqe : q = dir
      · have := hfree []
        rw [hqe, ← List.append_nil dir, this]; simp
      · rcases hway q hq' hqe with h | h <;> rw [h] <;> simp
    simp [this]
  have hok1 := BuildCopyLemmas.ok_mkdirAll hok hb1
  have hd1 := BuildCopyLemmas.mkdirAll_dir hb1 (List.prefix_refl dir)
  have hnear1 := mkdirAll_near dir
  have hf1 : ∀ x r, mget (run w.fs (mkdirAll dir)) (dir ++ x :: r) = none := fun x r => by
    rw [FilesLemmas.mkdirAll_get, if_neg (fun hc => by have := hc.length_le; simp at this; try omega)]
    exact hfree _
  have hr1 : ∀ b ∈ w.paths, ∀ r, mget (run w.fs (mkdirAll dir)) (b ++ r) = mget w.fs (b ++ r) :=
    fun b hb r => BuildCopyLemmas.near_source (hapart b hb) hnear1 _ r
  generalize hg1 : run w.fs (mkdirAll dir) = fs1 at hok1 hd1 hf1 hr1
  have hb2 : ¬ blocked fs1 (dir ++ [c!"packages"]) = true := by
    have : blocked fs1 (dir ++ [c!"packages"]) = false := by
      unfold blocked
      rw [List.any_eq_false]
      intro q hq
      have hq' := (List.mem_inits q _).1 hq
      rcases List.prefix_concat_iff.1 hq' with h | h
      · rw [h, hf1]; simp
      · by_cases hqe : q = dir
        · rw [hqe, hd1]; simp
        · rw [hok1.parents dir q h hqe (by rw [hd1]; rfl)]; simp
    simp [this]
  have hok2 := BuildCopyLemmas.ok_mkdirAll hok1 hb2
  have hd2 := BuildCopyLemmas.mkdirAll_dir hb2 (List.prefix_refl _)
  have hnear2 : ∀ s ∈ mkdirAll (dir ++ [c!"packages"]), BuildCopyLemmas.Near (dir ++ [c!"packages"]) s := mkdirAll_near _
  have hf2 : ∀ x r, mget (run fs1 (mkdirAll (dir ++ [c!"packages"]))) (dir ++ [c!"packages"] ++ x :: r) = none := fun x r => by
    rw [FilesLemmas.mkdirAll_get, if_neg (fun hc => by have := hc.length_le; simp at this; try omega), List.append_assoc]
    exact hf1 _ _
  have ho2 : ∀ x, x ≠ c!"packages" → mget (run fs1 (mkdirAll (dir ++ [c!"packages"]))) (dir ++ [x]) = none := fun x hx => by
    have := BuildCopyLemmas.near_other hnear2 fs1 (Ne.symm hx) []
    rw [this]; exact hf1 x []
  have hr2 : ∀ b ∈ w.paths, ∀ r, mget (run fs1 (mkdirAll (dir ++ [c!"packages"]))) (b ++ r) = mget w.fs (b ++ r) :=
    fun b hb r => by
      have hab : Apart b (dir ++ [c!"packages"]) := by
        have := apart_below (hapart b hb) [] [c!"packages"]
        rwa [List.append_nil] at this
      rw [BuildCopyLemmas.near_source hab hnear2, hr1 b hb]
  generalize hg2 : run fs1 (mkdirAll (dir ++ [c!"packages"])) = fs2 at hok2 hd2 hf2 ho2 hr2
  have hfit : Fit w dir w.fs l := ⟨hplain, honce, hapart, hsource⟩
  have hready : Ready w dir w.fs fs2 l := by
    refine ⟨hok2, hr2, hd2, fun n => Or.inl ?_, fun p hp r => ?_⟩
    · have := hf2 n []
      simpa using this
    · rw [home_of dir (hplain p hp)]
      have := hf2 p.name (verText p :: r)
      simpa using this
  obtain ⟨st, h1, h2, h3⟩ := copyAll_good w dir ho w.fs l hfit fs2 hready
  have hstn := copyAll_near w false dir l fs2
  rw [h1] at hstn
  have ho3 : ∀ x, x ≠ c!"packages" → mget (run fs2 st) (dir ++ [x]) = none := fun x hx => by
    have := apart_keeps (e := dir ++ [x]) (st := st) (fun t ht => by
      obtain ⟨q, hq, hn⟩ := hstn t ht
      refine ⟨home dir q, ?_, hn⟩
      rw [home_of dir (hplain q hq)]
      exact apart_head hx _ _) fs2 []
    rw [List.append_nil] at this
    rw [this]; exact ho2 x hx
  generalize hg3 : run fs2 st = fs3 at ho3 h2 h3
  -- the files
  have wr : ∀ (x : Str) (c : Str) (fs : FS), mget fs (dir ++ [x]) = none →
      Bundle.writeFile fs (dir ++ [x]) c = ([.create (dir ++ [x]), .write (dir ++ [x]) (.file c)], .done) :=
    fun x c fs h => writeFile_ok (by rw [h]; simp)
  have kp : ∀ (x y : Str) (c : Str) (fs : FS), y ≠ x → mget fs (dir ++ [y]) = none →
      mget (run fs [.create (dir ++ [x]), .write (dir ++ [x]) (.file c)]) (dir ++ [y]) = none := fun x y c fs h hy => by
    rw [write_get, if_neg (by simpa using h)]; exact hy
  have hmake : ∀ (m1 m2 : Str) (rx : Str), ∃ st4, (next fs3 (Bundle.writeFile fs3 (dir ++ [c!"bundle.json"]) m1) fun fs =>
      next fs (Bundle.writeFile fs (dir ++ [c!"bundle.yaml"]) m2) fun fs =>
      next fs (Bundle.writeFile fs (dir ++ [c!"context.rxt"]) rx) fun fs =>
      scripts fs dir (outText out (bundleName a.name rs)) l) = (st4, .done) ∧
      ∀ t ∈ st4, ∃ x, x ≠ c!"packages" ∧ BuildCopyLemmas.Near (dir ++ [x]) t := by
    intro m1 m2 rx
    have n1 := ho3 c!"bundle.json" (by decide)
    refine ⟨_, next_of (wr _ _ _ n1) (next_of (wr _ _ _ (kp _ _ _ _ (by decide) (ho3 _ (by decide))))
      (next_of (wr _ _ _ (kp _ _ _ _ (by decide) (kp _ _ _ _ (by decide) (ho3 _ (by decide))))) (by
        unfold scripts
        exact next_of (wr _ _ _ (kp _ _ _ _ (by decide) (kp _ _ _ _ (by decide) (kp _ _ _ _ (by decide) (ho3 _ (by decide))))))
          (next_of (wr _ _ _ (kp _ _ _ _ (by decide) (kp _ _ _ _ (by decide) (kp _ _ _ _ (by decide) (kp _ _ _ _ (by decide)
            (ho3 _ (by decide)))))))
          (wr _ _ _ (kp _ _ _ _ (by decide) (kp _ _ _ _ (by decide) (kp _ _ _ _ (by decide) (kp _ _ _ _ (by decide)
            (kp _ _ _ _ (by decide) (ho3 _ (by decide))))))))) ))), ?_⟩
    intro t ht
    simp only [List.cons_append, List.nil_append, List.mem_cons, List.not_mem_nil, or_false] at ht
    rcases ht with rfl | rfl | rfl | rfl | rfl | rfl | rfl | rfl | rfl | rfl | rfl | rfl <;>
      exact ⟨_, by decide, Or.inl List.prefix_rfl⟩
  obtain ⟨st4, h4, h5⟩ := hmake (w.json ⟨rs, infos w false dir fs2 l, w.now, bundleName a.name rs⟩)
    (yaml ⟨rs, infos w false dir fs2 l, w.now, bundleName a.name rs⟩) (w.rxt rs l)
  refine ⟨mkdirAll dir ++ (mkdirAll (dir ++ [c!"packages"]) ++ (st ++ st4)), ?_, ?_⟩
  · unfold bundle
    rw [hr]
    dsimp only
    rw [if_pos (List.all_eq_true.2 hparse), hl, hskip]
    unfold make
    dsimp only
    rw [← hdir]
    have e1 : Bundle.makeAll w.fs dir = (mkdirAll dir, .done) := by unfold Bundle.makeAll; rw [if_neg hb1]
    have e2 : Bundle.makeAll fs1 (dir ++ [c!"packages"]) = (mkdirAll (dir ++ [c!"packages"]), .done) := by
      unfold Bundle.makeAll; rw [if_neg hb2]
    refine next_of e1 ?_
    rw [hg1]
    refine next_of e2 ?_
    rw [hg2]
    refine next_of h1 ?_
    rw [hg3]
    exact h4
  · intro p hp v src hv hs r
    rw [FilesLemmas.run_append, FilesLemmas.run_append, FilesLemmas.run_append, hg1, hg2, hg3]
    have hh : dir ++ [c!"packages", p.name, v] = home dir p := by
      rw [home_of dir (hplain p hp), verText_plain hv]
    rw [hh, apart_keeps (fun t ht => by
      obtain ⟨x, hx, hn⟩ := h5 t ht
      refine ⟨dir ++ [x], ?_, hn⟩
      rw [home_of dir (hplain p hp)]
      exact apart_head (Ne.symm hx) _ _)]
    exact h3 p hp v src hv hs r

/-- A package in a repository `/r`. -/
def shelf : FS :=
  [([], .dir), ([c!"r"], .dir), ([c!"r", c!"p"], .dir), ([c!"r", c!"p", c!"1"], .dir),
   ([c!"r", c!"p", c!"1", c!"bin"], .dir), ([c!"r", c!"p", c!"1", c!"bin", c!"tool"], .file c!"run"),
   ([c!"r", c!"p", c!"1", c!"package.py"], .file c!"name")]

/-- A machine with it. -/
def bundler (fs : FS) (l : Option (List Pkg)) : World :=
  ⟨[c!"w"], fs, [[c!"r"]], fun _ => true, fun _ => l, c!"now", fun m => m.name, fun _ _ => c!"rxt", id, 5⟩

/-- A command. -/
def bundling : Args := ⟨[c!"p-1"], some c!"/b", none, false⟩

/-- The package. -/
def pkgP : Pkg := ⟨c!"p", some c!"1"⟩

example : request bundling = some ([c!"p-1"], some c!"/b") ∧ (∀ p ∈ [pkgP], Plain p) ∧
    join [c!"w"] (outText (some c!"/b") (bundleName none [c!"p-1"])) = [c!"b"] ∧ (∀ b ∈ [[c!"r"]], Apart b [c!"b"]) ∧
    Gone shelf [c!"b"] ∧ Source shelf [[c!"r"]] pkgP c!"1" [c!"r", c!"p", c!"1"] := by
  refine ⟨by decide, ?_, by decide, ?_, ?_, ?_⟩
  · intro p hp
    rw [List.mem_singleton.1 hp]
    exact ⟨⟨by decide, by decide, by decide⟩, c!"1", rfl, ⟨by decide, by decide, by decide⟩⟩
  · intro b hb
    rw [List.mem_singleton.1 hb]
    exact ⟨by decide, by decide⟩
  · intro r
    cases hm : mget shelf ([c!"b"] ++ r) with
    | none => rfl
    | some e =>
      have := mget_some_mem hm
      simp [shelf] at this
  · exact ⟨[], [c!"r"], [], rfl, rfl, by decide, by simp⟩

example : (bundle (bundler shelf (some [pkgP])) bundling).2 = .done ∧
    mget (run shelf (bundle (bundler shelf (some [pkgP])) bundling).1) [c!"b", c!"packages", c!"p", c!"1", c!"bin", c!"tool"] =
      some (.file c!"run") := ⟨by decide +kernel, by decide +kernel⟩

/-- C172 is false of requests that cannot be resolved: the bundle is the one of no package at all, and a success. -/
theorem C172_unresolved_false (w : World) (a : Args) (h : ∀ rs, w.resolve rs = none) :
    bundle w a = bundle { w with resolve := fun _ => some [] } a ∧
    (bundle (bundler shelf none) bundling).2 = .done := by
  refine ⟨?_, by decide +kernel⟩
  unfold bundle
  simp only [h]
  rfl

/-- C172 is false of packages without a version: they lie in the directory of their name, and are looked for in one that is
called `unknown`; the bundle has nothing of them, and is a success. -/
theorem C172_unversioned_false :
    (bundle (bundler shelf (some [⟨c!"p", none⟩])) bundling).2 = .done ∧
    mget shelf [c!"r", c!"p"] = some .dir ∧
    mget (run shelf (bundle (bundler shelf (some [⟨c!"p", none⟩])) bundling).1) [c!"b", c!"packages", c!"p"] = none :=
  ⟨by decide +kernel, by decide +kernel, by decide +kernel⟩

/-- C172 is false of packages that cannot be copied: here a socket stops the copying, and what comes after it is missing; the
bundle is a success. -/
theorem C172_failed_false :
    let fs := shelf ++ [([c!"r", c!"p", c!"1", c!"lock"], .special), ([c!"r", c!"p", c!"1", c!"zlib"], .file c!"code")]
    (bundle (bundler fs (some [pkgP])) bundling).2 = .done ∧
    mget (run fs (bundle (bundler fs (some [pkgP])) bundling).1) [c!"b", c!"packages", c!"p", c!"1", c!"zlib"] = none :=
  ⟨by decide +kernel, by decide +kernel⟩

/-- C172 is false of a bundle that is there already: the packages it had stay in it. -/
theorem C172_stale_false :
    let fs := shelf ++ [([c!"b"], .dir), ([c!"b", c!"packages"], .dir), ([c!"b", c!"packages", c!"q"], .dir),
      ([c!"b", c!"packages", c!"q", c!"2"], .dir)]
    (bundle (bundler fs (some [pkgP])) bundling).2 = .done ∧
    mget (run fs (bundle (bundler fs (some [pkgP])) bundling).1) [c!"b", c!"packages", c!"q", c!"2"] = some .dir :=
  ⟨by decide +kernel, by decide +kernel⟩

/-! ## C173, C174: the files of a bundle -/

namespace BundleLemmas
open BuildCopyLemmas

theorem writeFile_done {fs : FS} {p : Path} {c : Str} {st : List Step} (h : Bundle.writeFile fs p c = (st, .done)) (q : Path) :
    mget (Files.run fs st) q = if q = p then some (.file c) else mget fs q := by
  unfold Bundle.writeFile at h
  split at h
  · simp at h
  · simp only [Prod.mk.injEq, and_true] at h
    rw [← h]; exact write_get fs p c q

theorem infos_names (w : World) (skip : Bool) (dir : Path) (l : List Pkg) (fs : FS) :
    (infos w skip dir fs l).map (fun i => (i.name, i.version, i.bundlePath)) =
      l.map fun p => (p.name, verText p, p.name ++ c!"/" ++ verText p) := by
  induction l generalizing fs with
  | nil => rfl
  | cons p l ih => simp [infos, ih]

/-- A step that takes nothing away. -/
def Adds (s : Step) : Prop := ∀ p, s ≠ .remove p

theorem each_adds {sub : FS → Path → Path → List Step × Build.CopyEnd} (hsub : ∀ fs s d, ∀ t ∈ (sub fs s d).1, Adds t)
    (skip : Str → Bool) (src dst : Path) (fs : FS) (l : List (Str × Entry)) :
    ∀ t ∈ (Build.copyEach sub skip src dst fs l).1, Adds t := by
  induction l generalizing fs with
  | nil => intro t ht; simp [Build.copyEach] at ht
  | cons a l ih =>
    obtain ⟨x, e⟩ := a
    have hone : ∀ t ∈ (Build.copyOne sub src dst fs x e).1, Adds t := by
      intro t ht
      cases e with
      | dir => exact hsub _ _ _ t ht
      | file c =>
        simp only [Build.copyOne] at ht
        split at ht
        · simp at ht
        · simp only [List.mem_cons, List.not_mem_nil, or_false] at ht
          rcases ht with rfl | rfl <;> exact fun p h => nomatch h
      | link c => simp [Build.copyOne] at ht
      | special => simp [Build.copyOne] at ht
    unfold Build.copyEach
    by_cases hs : skip x = true
    · rw [if_pos hs]; exact ih fs
    · rw [if_neg hs]
      rcases hc : Build.copyOne sub src dst fs x e with ⟨s, r⟩
      rw [hc] at hone
      cases r with
      | done n =>
        simp only
        have hr := ih (Files.run fs s)
        rcases hc2 : Build.copyEach sub skip src dst (Files.run fs s) l with ⟨s', r'⟩
        rw [hc2] at hr
        intro t ht
        have ht' : t ∈ s ++ s' := by cases r' <;> exact ht
        rcases List.mem_append.1 ht' with h1 | h1
        · exact hone t h1
        · exact hr t h1
      | failed => exact hone
      | unfinished => exact hone

theorem mkdirAll_adds (p : Path) : ∀ t ∈ mkdirAll p, Adds t := by
  intro t ht
  obtain ⟨q, _, rfl⟩ := List.mem_map.1 ht
  exact fun p h => nomatch h

theorem dir_adds (order : Build.Listing) (skip : Str → Bool) (n : Nat) (fs : FS) (src dst : Path) :
    ∀ t ∈ (Build.copyDir order skip n fs src dst).1, Adds t := by
  induction n generalizing skip fs src dst with
  | zero => intro t ht; simp [Build.copyDir] at ht
  | succ n ih =>
    unfold Build.copyDir
    split
    · intro t ht; simp at ht
    · intro t ht
      rcases List.mem_append.1 ht with h | h
      · exact mkdirAll_adds _ t h
      · exact each_adds (fun fs s d => ih _ fs s d) skip src dst _ _ t h

theorem copyPkg_adds (w : World) (skip : Bool) (dir : Path) (fs : FS) (p : Pkg) :
    ∀ s ∈ (copyPkg w skip dir fs p).1, Adds s := by
  unfold copyPkg
  split
  · intro s hs; simp at hs
  · cases Bundle.findDir fs w.paths p.name (verText p) with
    | none => intro s hs; simp at hs
    | some src =>
      have := dir_adds w.order (fun _ => false) w.depth fs src (home dir p)
      dsimp only
      rcases hc : copyDir w.order (fun _ => false) w.depth fs src (home dir p) with ⟨s, e⟩
      rw [hc] at this
      cases e <;> exact this

theorem makeAll_adds (fs : FS) (p : Path) : ∀ s ∈ (makeAll fs p).1, Adds s := by
  unfold makeAll
  split
  · intro s hs; cases hs
  · exact mkdirAll_adds p

theorem keeps_step {s : Step} (h : Adds s) (fs : FS) (q : Path) (hq : (mget fs q).isSome = true) :
    (mget (Step.apply fs s) q).isSome = true := by
  cases s with
  | mkdir p =>
    simp only [Step.apply]
    split
    · exact hq
    · rw [mget_mset]
      split
      · rfl
      · exact hq
  | create p =>
    simp only [Step.apply, mget_mset]
    split
    · rfl
    · exact hq
  | write p e =>
    simp only [Step.apply, mget_mset]
    split
    · rfl
    · exact hq
  | remove p => exact absurd rfl (h p)

theorem keeps_run {st : List Step} (h : ∀ s ∈ st, Adds s) (fs : FS) (q : Path) (hq : (mget fs q).isSome = true) :
    (mget (Files.run fs st) q).isSome = true := by
  induction st generalizing fs with
  | nil => exact hq
  | cons s st ih =>
    exact ih (fun t ht => h t (by simp [ht])) _ (keeps_step (h s (by simp)) fs q hq)

/-- What is noted of where packages came from. -/
theorem infos_source (w : World) (skip : Bool) (dir : Path) (l : List Pkg) (fs0 fs : FS)
    (hk : ∀ q, (mget fs0 q).isSome = true → (mget fs q).isSome = true) :
    ∀ i ∈ infos w skip dir fs l,
      (∀ src, i.source = some src → ∃ b ∈ w.paths, src = join (join b i.name) i.version) ∧
      (i.source = none → ∀ b ∈ w.paths, mget fs0 (join (join b i.name) i.version) = none) := by
  induction l generalizing fs with
  | nil => intro i hi; cases hi
  | cons p l ih =>
    intro i hi
    rcases List.mem_cons.1 hi with rfl | hi
    · refine ⟨fun src hs => ?_, fun hs b hb => ?_⟩
      · have := List.mem_of_find?_eq_some hs
        obtain ⟨b, hb, rfl⟩ := List.mem_map.1 this
        exact ⟨b, hb, rfl⟩
      · have := List.find?_eq_none.1 hs _ (List.mem_map_of_mem hb)
        cases hc : mget fs0 (join (join b p.name) (verText p)) with
        | none => rfl
        | some e => exact absurd (hk _ (by rw [hc]; rfl)) this
    · exact ih _ (fun q hq => keeps_run (copyPkg_adds w skip dir fs p) fs q (hk q hq)) i hi

/-- What is in a bundle that is made. -/
theorem make_files {w : World} {skip : Bool} {rs : List Str} {name out : Str} {l : List Pkg} {st : List Step}
    (h : make w skip rs name out l = (st, .done)) :
    ∃ (m : Meta) (fs : FS), m.requests = rs ∧ m.name = name ∧ m.created = w.now ∧
      m.packages.map (fun i => (i.name, i.version, i.bundlePath)) =
        l.map (fun p => (p.name, verText p, p.name ++ c!"/" ++ verText p)) ∧
      (∀ i ∈ m.packages, (∀ src, i.source = some src → ∃ b ∈ w.paths, src = join (join b i.name) i.version) ∧
        (i.source = none → ∀ b ∈ w.paths, mget w.fs (join (join b i.name) i.version) = none)) ∧
      (∀ x r, x ∉ [c!"bundle.json", c!"bundle.yaml", c!"context.rxt", c!"activate.sh", c!"activate.ps1", c!"activate.bat"] →
        mget (Files.run w.fs st) (join w.cwd out ++ x :: r) = mget fs (join w.cwd out ++ x :: r)) ∧
      mget (Files.run w.fs st) (join w.cwd out ++ [c!"bundle.json"]) = some (.file (w.json m)) ∧
      mget (Files.run w.fs st) (join w.cwd out ++ [c!"bundle.yaml"]) = some (.file (yaml m)) ∧
      mget (Files.run w.fs st) (join w.cwd out ++ [c!"context.rxt"]) = some (.file (w.rxt rs l)) ∧
      mget (Files.run w.fs st) (join w.cwd out ++ [c!"activate.sh"]) =
        some (.file (RexShell.script (scriptEnv fs (join w.cwd out) out l) .bash)) ∧
      mget (Files.run w.fs st) (join w.cwd out ++ [c!"activate.ps1"]) =
        some (.file (RexShell.script (scriptEnv fs (join w.cwd out) out l) .powershell)) ∧
      mget (Files.run w.fs st) (join w.cwd out ++ [c!"activate.bat"]) =
        some (.file (RexShell.script (scriptEnv fs (join w.cwd out) out l) .cmd)) := by
  unfold make at h
  dsimp only at h
  generalize join w.cwd out = dir at h ⊢
  obtain ⟨s1, t1, h1, k1, rfl⟩ := next_done h
  obtain ⟨s2, t2, h2, k2, rfl⟩ := next_done k1
  obtain ⟨s3, t3, h3, k3, rfl⟩ := next_done k2
  obtain ⟨s4, t4, h4, k4, rfl⟩ := next_done k3
  obtain ⟨s5, t5, h5, k5, rfl⟩ := next_done k4
  obtain ⟨s6, t6, h6, k6, rfl⟩ := next_done k5
  unfold scripts at k6
  dsimp only at k6
  obtain ⟨s7, t7, h7, k7, rfl⟩ := next_done k6
  obtain ⟨s8, t8, h8, k8, rfl⟩ := next_done k7
  have g4 := writeFile_done h4
  have g5 := writeFile_done h5
  have g6 := writeFile_done h6
  have g7 := writeFile_done h7
  have g8 := writeFile_done h8
  have g9 := writeFile_done k8
  simp only [FilesLemmas.run_append]
  have one : ∀ (x y : Str), (dir ++ [x] = dir ++ [y]) = (x = y) := fun x y => by simp
  refine ⟨⟨rs, infos w skip dir (Files.run (Files.run w.fs s1) s2) l, w.now, name⟩,
    Files.run (Files.run (Files.run (Files.run (Files.run (Files.run w.fs s1) s2) s3) s4) s5) s6, rfl, rfl, rfl,
    infos_names _ _ _ _ _, ?_, ?_, ?_, ?_, ?_, ?_, ?_, ?_⟩
  · refine infos_source w skip dir l w.fs _ fun q hq => ?_
    have n1 := makeAll_adds w.fs dir
    rw [h1] at n1
    have n2 := makeAll_adds (Files.run w.fs s1) (dir ++ [c!"packages"])
    rw [h2] at n2
    exact keeps_run n2 _ q (keeps_run n1 _ q hq)
  · intro x r hx
    simp only [List.mem_cons, List.not_mem_nil, or_false, not_or] at hx
    have ne : ∀ y, x ≠ y → ¬ (dir ++ x :: r = dir ++ [y]) := fun y hy hc => by
      simp only [List.append_cancel_left_eq, List.cons.injEq] at hc
      exact hy hc.1
    rw [g9, if_neg (ne _ hx.2.2.2.2.2), g8, if_neg (ne _ hx.2.2.2.2.1), g7, if_neg (ne _ hx.2.2.2.1)]
  · rw [g9, if_neg (by rw [one]; decide), g8, if_neg (by rw [one]; decide), g7, if_neg (by rw [one]; decide), g6,
      if_neg (by rw [one]; decide), g5, if_neg (by rw [one]; decide), g4, if_pos rfl]
  · rw [g9, if_neg (by rw [one]; decide), g8, if_neg (by rw [one]; decide), g7, if_neg (by rw [one]; decide), g6,
      if_neg (by rw [one]; decide), g5, if_pos rfl]
  · rw [g9, if_neg (by rw [one]; decide), g8, if_neg (by rw [one]; decide), g7, if_neg (by rw [one]; decide), g6, if_pos rfl]
  · rw [g9, if_neg (by rw [one]; decide), g8, if_neg (by rw [one]; decide), g7, if_pos rfl]
  · rw [g9, if_neg (by rw [one]; decide), g8, if_pos rfl]
  · rw [g9, if_pos rfl]

theorem bundle_make {w : World} {a : Args} {rs : List Str} {out : Option Str} {l : List Pkg} {st : List Step}
    (hr : request a = some (rs, out)) (hl : w.resolve rs = some l) (h : bundle w a = (st, .done)) :
    make w a.skipCopy rs (bundleName a.name rs) (outText out (bundleName a.name rs)) l = (st, .done) := by
  unfold bundle at h
  rw [hr] at h
  dsimp only at h
  split at h
  · rw [hl] at h; exact h
  · simp at h

/-- The variable of a package. -/
theorem root_ne_path (n : Str) : Environment.upper n ++ c!"_ROOT" ≠ c!"PATH" := by
  intro h
  have := congrArg List.length h
  simp at this

theorem addVars_get (fs : FS) (dir : Path) (out : Str) (vars : List (Str × Str)) (p : Pkg) (k : Str) :
    mget (addVars fs dir out vars p) k =
      if k = Environment.upper p.name ++ c!"_ROOT" then some (rootText out p)
      else if k = c!"PATH" ∧ (mget fs (home dir p ++ [c!"bin"])).isSome then
        some (if ((mget vars c!"PATH").getD []).isEmpty then pjoin (rootText out p) c!"bin"
          else pjoin (rootText out p) c!"bin" ++ c!":" ++ (mget vars c!"PATH").getD [])
      else mget vars k := by
  unfold addVars
  have hne := root_ne_path p.name
  dsimp only
  by_cases hb : (mget fs (home dir p ++ [c!"bin"])).isSome
  · rw [if_pos hb, mget_mset, mget_mset, mget_mset, if_neg hne.symm]
    by_cases hk : k = c!"PATH"
    · subst hk
      have hc : (c!"PATH" = c!"PATH" ∧ (mget fs (home dir p ++ [c!"bin"])).isSome = true) := ⟨rfl, hb⟩
      rw [if_pos hc, if_pos (rfl : c!"PATH" = c!"PATH"), if_neg hne.symm]
    · rw [if_neg hk]
      by_cases hk2 : k = Environment.upper p.name ++ c!"_ROOT"
      · rw [if_pos hk2, if_pos hk2]
      · rw [if_neg hk2, if_neg hk2, if_neg (fun hc => hk hc.1)]
  · rw [if_neg hb, mget_mset]
    by_cases hk2 : k = Environment.upper p.name ++ c!"_ROOT"
    · rw [if_pos hk2, if_pos hk2]
    · rw [if_neg hk2, if_neg hk2, if_neg (fun hc => hb hc.2)]

theorem addVars_nodup (fs : FS) (dir : Path) (out : Str) (vars : List (Str × Str)) (p : Pkg) (h : (mkeys vars).Nodup) :
    (mkeys (addVars fs dir out vars p)).Nodup := by
  unfold addVars
  dsimp only
  split
  · exact nodup_mset (nodup_mset h _ _) _ _
  · exact nodup_mset h _ _

/-- The directories that the scripts put in the search path. -/
def bins (fs : FS) (dir : Path) (out : Str) (l : List Pkg) : List Str :=
  ((l.filter fun p => (mget fs (home dir p ++ [c!"bin"])).isSome).reverse).map fun p => pjoin (rootText out p) c!"bin"

theorem pjoin_ne (a : Str) : pjoin a c!"bin" ≠ [] := by
  unfold pjoin
  split
  · decide
  · split
    · decide
    · split <;> simp

theorem joinWith_ne {a : Str} {l : List Str} (h : a ≠ []) : (joinWith c!":" (a :: l)).isEmpty = false := by
  cases l with
  | nil => cases a with
    | nil => exact absurd rfl h
    | cons _ _ => rfl
  | cons b l => cases a with
    | nil => exact absurd rfl h
    | cons _ _ => rfl

theorem vars_spec (fs : FS) (dir : Path) (out : Str) (l : List Pkg) (hd : (l.map fun p => Environment.upper p.name).Nodup) :
    (mkeys (l.foldl (addVars fs dir out) [])).Nodup ∧
    (∀ p ∈ l, mget (l.foldl (addVars fs dir out) []) (Environment.upper p.name ++ c!"_ROOT") = some (rootText out p)) ∧
    mget (l.foldl (addVars fs dir out) []) c!"PATH" =
      (if bins fs dir out l = [] then none else some (joinWith c!":" (bins fs dir out l))) ∧
    ∀ k, k ≠ c!"PATH" → (∀ p ∈ l, k ≠ Environment.upper p.name ++ c!"_ROOT") →
      mget (l.foldl (addVars fs dir out) []) k = none := by
  induction l using List.reverseRecOn with
  | nil => exact ⟨List.nodup_nil, fun p hp => by simp at hp, rfl, fun _ _ _ => rfl⟩
  | append_singleton l p ih =>
    rw [List.map_append, List.nodup_append] at hd
    obtain ⟨h1, h2, h3, h4⟩ := ih hd.1
    rw [List.foldl_append, List.foldl_cons, List.foldl_nil]
    generalize l.foldl (addVars fs dir out) [] = V at h1 h2 h3 h4
    refine ⟨addVars_nodup _ _ _ _ _ h1, ?_, ?_, ?_⟩
    · intro q hq
      rw [addVars_get]
      rcases List.mem_append.1 hq with hq | hq
      · have hne : Environment.upper q.name ≠ Environment.upper p.name :=
          hd.2.2 _ (List.mem_map.2 ⟨q, hq, rfl⟩) _ (by simp)
        rw [if_neg (fun hc => hne (List.append_cancel_right hc)), if_neg (fun hc => root_ne_path q.name hc.1)]
        exact h2 q hq
      · rw [List.mem_singleton.1 hq, if_pos rfl]
    · rw [addVars_get, if_neg (root_ne_path p.name).symm]
      by_cases hb : (mget fs (home dir p ++ [c!"bin"])).isSome
      · rw [if_pos ⟨rfl, hb⟩]
        have hbins : bins fs dir out (l ++ [p]) = pjoin (rootText out p) c!"bin" :: bins fs dir out l := by
          unfold bins
          rw [List.filter_append, List.filter_cons_of_pos (p := fun p => (mget fs (home dir p ++ [c!"bin"])).isSome) hb]
          simp
        rw [hbins, h3]
        by_cases he : bins fs dir out l = []
        · rw [if_pos he, he]; rfl
        · rw [if_neg he]
          obtain ⟨x, rest, hx⟩ := List.exists_cons_of_ne_nil he
          have hxne : x ≠ [] := by
            have : x ∈ bins fs dir out l := by rw [hx]; simp
            unfold bins at this
            obtain ⟨q, _, rfl⟩ := List.mem_map.1 this
            exact pjoin_ne _
          rw [hx, Option.getD_some, joinWith_ne hxne, if_neg (by simp), if_neg (by simp)]
          rfl
      · rw [if_neg (fun hc => hb hc.2), h3]
        have hbins : bins fs dir out (l ++ [p]) = bins fs dir out l := by
          unfold bins
          rw [List.filter_append, List.filter_cons_of_neg (p := fun p => (mget fs (home dir p ++ [c!"bin"])).isSome) hb]
          simp
        rw [hbins]
    · intro k hk hall
      rw [addVars_get, if_neg (hall p (by simp)), if_neg (fun hc => hk hc.1)]
      exact h4 k hk fun q hq => hall q (by simp [hq])

theorem pjoin_component {a b : Str} (ha : a ≠ []) (hs : a.getLast? ≠ some '/') (hb : Component b) : pjoin a b = a ++ '/' :: b := by
  unfold pjoin
  have : b.head? ≠ some '/' := fun h => hb.slash (List.mem_of_mem_head? h)
  rw [if_neg this, if_neg ha, if_neg hs]

theorem last_component {a b : Str} (hb : Component b) : (a ++ '/' :: b).getLast? ≠ some '/' := by
  intro h
  have e : a ++ '/' :: b = (a ++ ['/']) ++ b := by simp
  rw [e, List.getLast?_append_of_ne_nil _ hb.filled] at h
  exact hb.slash (List.mem_of_mem_getLast? h)

theorem rootText_plain {out : Str} {p : Pkg} {v : Str} (h1 : out ≠ []) (h2 : out.getLast? ≠ some '/') (hp : Component p.name)
    (hv : p.version = some v) (hc : Component v) :
    rootText out p = out ++ c!"/packages/" ++ p.name ++ c!"/" ++ v := by
  unfold rootText
  have hk : Component c!"packages" := ⟨by decide, by decide, by decide⟩
  rw [verText_plain hv, pjoin_component h1 h2 hk, pjoin_component (by simp) (last_component hk) hp,
    pjoin_component (by simp) (last_component hp) hc]
  simp

end BundleLemmas
open BundleLemmas

/-- C173: reading `activate.sh` in bash sets the root of every package to its directory in the bundle and the search path to
the `bin` directories of the packages that have one, the last package first, and leaves the other variables alone; for
packages whose names are names of variables, different without regard to case, and texts without `$` and backtick.

Full statement: the search path is kept behind these directories, and the roots are those of the bundle wherever it is.  It is
false: see `C173_path_false`, `C173_moved_false`, `C173_relative_false`. -/
theorem C173_script_partial (w : World) (a : Args) (rs : List Str) (out : Option Str) (l : List Pkg) (steps : List Step)
    (hr : request a = some (rs, out)) (hl : w.resolve rs = some l) (h : bundle w a = (steps, .done))
    (hplain : ∀ p ∈ l, Plain p) (hnames : ∀ p ∈ l, Rez.Spec.Shell.IsName (Environment.upper p.name ++ c!"_ROOT"))
    (hdiff : (l.map fun p => Environment.upper p.name).Nodup) (o : Str) (ho : o = outText out (bundleName a.name rs))
    (hne : o ≠ []) (hslash : o.getLast? ≠ some '/') (htext : ∀ c ∈ o, c ≠ '$' ∧ c ≠ '`')
    (hptext : ∀ p ∈ l, ∀ c ∈ p.name ++ verText p, c ≠ '$' ∧ c ≠ '`') (st : Rez.Spec.Shell.State) :
    ∃ text st' bs, mget (Files.run w.fs steps) (join w.cwd o ++ [c!"activate.sh"]) = some (.file text) ∧
      Rez.Spec.Shell.run Rez.Spec.Shell.bashStep st text = some st' ∧
      (∀ p ∈ l, ∀ v, p.version = some v →
        st'.var (Environment.upper p.name ++ c!"_ROOT") = some (o ++ c!"/packages/" ++ p.name ++ c!"/" ++ v)) ∧
      bs = (l.filter fun p => (mget (Files.run w.fs steps) (join w.cwd o ++ [c!"packages", p.name, verText p, c!"bin"])).isSome) ∧
      st'.var c!"PATH" = (if bs = [] then st.var c!"PATH" else
        some (joinWith c!":" (bs.reverse.map fun p => o ++ c!"/packages/" ++ p.name ++ c!"/" ++ verText p ++ c!"/bin"))) ∧
      ∀ k, k ≠ c!"PATH" → (∀ p ∈ l, k ≠ Environment.upper p.name ++ c!"_ROOT") → st'.var k = st.var k := by
  have hm := bundle_make hr hl h
  rw [← ho] at hm
  obtain ⟨_, fs, _, _, _, _, _, hkeep, _, _, _, hsh, _⟩ := make_files hm
  generalize hdir : join w.cwd o = dir at *
  have hroot : ∀ p ∈ l, rootText o p = o ++ c!"/packages/" ++ p.name ++ c!"/" ++ verText p := fun p hp => by
    obtain ⟨v, hv, hc⟩ := (hplain p hp).version
    rw [rootText_plain hne hslash (hplain p hp).name hv hc, verText_plain hv]
  have hbinText : ∀ p ∈ l, pjoin (rootText o p) c!"bin" = o ++ c!"/packages/" ++ p.name ++ c!"/" ++ verText p ++ c!"/bin" := fun p hp => by
    obtain ⟨v, hv, hc⟩ := (hplain p hp).version
    have hk : Component c!"bin" := ⟨by decide, by decide, by decide⟩
    have hlast : (o ++ c!"/packages/" ++ p.name ++ c!"/" ++ v).getLast? ≠ some '/' := by
      have := last_component (a := o ++ c!"/packages/" ++ p.name) hc
      simpa using this
    rw [hroot p hp, verText_plain hv, pjoin_component (by simp [hne]) hlast hk]
  have hbin : ∀ p ∈ l, (mget fs (home dir p ++ [c!"bin"])).isSome =
      (mget (Files.run w.fs steps) (dir ++ [c!"packages", p.name, verText p, c!"bin"])).isSome := fun p hp => by
    rw [hkeep c!"packages" _ (by decide), home_of dir (hplain p hp)]
    simp
  have hfilter : (l.filter fun p => (mget fs (home dir p ++ [c!"bin"])).isSome) =
      l.filter fun p => (mget (Files.run w.fs steps) (dir ++ [c!"packages", p.name, verText p, c!"bin"])).isSome :=
    List.filter_congr fun p hp => hbin p hp
  obtain ⟨v1, v2, v3, v4⟩ := vars_spec fs dir o l hdiff
  have hbins : bins fs dir o l = ((l.filter fun p =>
      (mget (Files.run w.fs steps) (dir ++ [c!"packages", p.name, verText p, c!"bin"])).isSome).reverse).map
        fun p => o ++ c!"/packages/" ++ p.name ++ c!"/" ++ verText p ++ c!"/bin" := by
    unfold bins
    rw [hfilter]
    refine List.map_congr_left fun p hp => hbinText p ?_
    exact (List.mem_filter.1 (List.mem_reverse.1 hp)).1
  have hokc : ∀ p ∈ l, ∀ c ∈ o ++ c!"/packages/" ++ p.name ++ c!"/" ++ verText p, c ≠ '$' ∧ c ≠ '`' := by
    intro p hp c hc
    simp only [List.append_assoc, List.mem_append] at hc
    have g := hptext p hp
    rcases hc with hc | hc | hc | hc | hc
    · exact htext c hc
    · revert c; decide
    · exact g c (by simp [hc])
    · revert c; decide
    · exact g c (by simp [hc])
  have hkey : ∀ x ∈ (scriptEnv fs dir o l).vars, mget (l.foldl (addVars fs dir o) []) x.1 = some x.2 := fun x hx =>
    mget_of_mem v1 hx
  have hcase : ∀ x ∈ (scriptEnv fs dir o l).vars, Rez.Spec.Shell.IsName x.1 ∧ ∀ c ∈ x.2, c ≠ '$' ∧ c ≠ '`' := by
    intro x hx
    have hx' := hkey x hx
    by_cases h1 : x.1 = c!"PATH"
    · refine ⟨by rw [h1]; exact ⟨'P', c!"ATH", rfl, by decide, by decide⟩, ?_⟩
      rw [h1, v3] at hx'
      split at hx'
      · cases hx'
      · rw [← Option.some.inj hx', hbins]
        have gen : ∀ ls : List Str, (∀ s ∈ ls, ∀ c ∈ s, c ≠ '$' ∧ c ≠ '`') → ∀ c ∈ joinWith c!":" ls, c ≠ '$' ∧ c ≠ '`' := by
          intro ls
          induction ls with
          | nil => intro _ c hc; simp [joinWith] at hc
          | cons s ls ih =>
            intro hs c hc
            cases ls with
            | nil => exact hs s (by simp) c (by simpa [joinWith] using hc)
            | cons s2 ls =>
              have hc' : c ∈ s ++ c!":" ++ joinWith c!":" (s2 :: ls) := hc
              simp only [List.append_assoc, List.mem_append] at hc'
              rcases hc' with hc' | hc' | hc'
              · exact hs s (by simp) c hc'
              · exact (by decide : ∀ c ∈ c!":", c ≠ '$' ∧ c ≠ '`') c hc'
              · exact ih (fun s' h' => hs s' (List.mem_cons_of_mem _ h')) c hc'
        refine gen _ fun s hs c hc => ?_
        obtain ⟨p, hp, rfl⟩ := List.mem_map.1 hs
        have hp' := (List.mem_filter.1 (List.mem_reverse.1 hp)).1
        rcases List.mem_append.1 hc with hc | hc
        · exact hokc p hp' c hc
        · exact (by decide : ∀ c ∈ c!"/bin", c ≠ '$' ∧ c ≠ '`') c hc
    · by_cases h2 : ∃ p ∈ l, x.1 = Environment.upper p.name ++ c!"_ROOT"
      · obtain ⟨p, hp, h2⟩ := h2
        refine ⟨by rw [h2]; exact hnames p hp, ?_⟩
        rw [h2, v2 p hp] at hx'
        rw [← Option.some.inj hx', hroot p hp]
        exact hokc p hp
      · have := v4 x.1 h1 fun p hp hc => h2 ⟨p, hp, hc⟩
        rw [this] at hx'; cases hx'
  obtain ⟨st', r1, r2, _⟩ := C59_bash_partial (scriptEnv fs dir o l) st v1 List.nodup_nil (fun x hx => (hcase x hx).1)
    (fun x hx => (hcase x hx).2) (fun x hx => by cases hx) (fun m hm => by cases hm) rfl rfl
  refine ⟨_, st', _, hsh, r1, ?_, rfl, ?_, ?_⟩
  · intro p hp v hv
    rw [r2]
    show (mget (l.foldl (addVars fs dir o) []) _).or _ = _
    rw [v2 p hp, hroot p hp, verText_plain hv]; rfl
  · rw [r2]
    show (mget (l.foldl (addVars fs dir o) []) _).or _ = _
    rw [v3, hbins]
    by_cases he : (l.filter fun p => (mget (Files.run w.fs steps) (dir ++ [c!"packages", p.name, verText p, c!"bin"])).isSome) = []
    · rw [he]; rfl
    · rw [if_neg he, if_neg (by simpa using he)]; rfl
  · intro k hk hall
    rw [r2]
    show (mget (l.foldl (addVars fs dir o) []) _).or _ = _
    rw [v4 k hk hall]; rfl

example : Rez.Spec.Shell.IsName (Environment.upper pkgP.name ++ c!"_ROOT") ∧
    (∀ c ∈ c!"/b", c ≠ '$' ∧ c ≠ '`') ∧ ∀ c ∈ pkgP.name ++ verText pkgP, c ≠ '$' ∧ c ≠ '`' :=
  ⟨⟨'P', c!"_ROOT", by decide, by decide, by decide⟩, by decide, by decide⟩

/-- A shell with a search path. -/
def userShell : Rez.Spec.Shell.State := ⟨fun k => if k = c!"PATH" then some c!"/usr/bin:/bin" else none, fun _ => none⟩

/-- What is in a file. -/
def textAt (fs : FS) (p : Path) : Str :=
  match mget fs p with
  | some (.file c) => c
  | _ => []

/-- C173 is false of the search path: the one of the shell is lost, and no command of the system is found any more. -/
theorem C173_path_false :
    (Rez.Spec.Shell.run Rez.Spec.Shell.bashStep userShell
      (textAt (Files.run shelf (bundle (bundler shelf (some [pkgP])) bundling).1) [c!"b", c!"activate.sh"])).map
        (fun st => st.var c!"PATH") = some (some c!"/b/packages/p/1/bin") ∧ userShell.var c!"PATH" = some c!"/usr/bin:/bin" :=
  ⟨by decide +kernel, by decide⟩

/-- C173 is false of a bundle that is moved: the script is a text with the directory in which it was made. -/
theorem C173_moved_false :
    (Rez.Spec.Shell.run Rez.Spec.Shell.bashStep userShell
      (textAt (Files.run shelf (bundle (bundler shelf (some [pkgP])) bundling).1) [c!"b", c!"activate.sh"])).map
        (fun st => st.var c!"P_ROOT") = some (some c!"/b/packages/p/1") := by decide +kernel

/-- C173 is false of a bundle without `--output`: the roots are paths from the directory in which the command was run. -/
theorem C173_relative_false :
    (Rez.Spec.Shell.run Rez.Spec.Shell.bashStep userShell
      (textAt (Files.run shelf (bundle (bundler shelf (some [pkgP])) { bundling with output := none }).1)
        [c!"w", c!"p_1", c!"activate.sh"])).map (fun st => st.var c!"P_ROOT") = some (some c!"./p_1/packages/p/1") := by
  decide +kernel

/-- C173 is false of names with a hyphen: the variable has one too, and the script is an error. -/
theorem C173_name_false :
    (Rez.Spec.Shell.run Rez.Spec.Shell.bashStep userShell
      (textAt (Files.run shelf (bundle (bundler shelf (some [⟨c!"my-tool", some c!"1"⟩])) bundling).1)
        [c!"b", c!"activate.sh"])).isNone = true := by decide +kernel

/-- C174: a bundle that is made has the five other files, with the requests, the name and the packages in the order of the
resolution, each with its place in the bundle and the directory it came from: one of a search path, or none if no search path had
the package. -/
theorem C174_files (w : World) (a : Args) (rs : List Str) (out : Option Str) (l : List Pkg) (steps : List Step)
    (hr : request a = some (rs, out)) (hl : w.resolve rs = some l) (h : bundle w a = (steps, .done)) (dir : Path)
    (hdir : dir = join w.cwd (outText out (bundleName a.name rs))) :
    ∃ m : Meta, m.requests = rs ∧ m.name = bundleName a.name rs ∧ m.created = w.now ∧
      m.packages.map (fun i => (i.name, i.version, i.bundlePath)) =
        l.map (fun p => (p.name, p.version.getD c!"unknown", p.name ++ c!"/" ++ p.version.getD c!"unknown")) ∧
      (∀ i ∈ m.packages, (∀ src, i.source = some src → ∃ b ∈ w.paths, src = join (join b i.name) i.version) ∧
        (i.source = none → ∀ b ∈ w.paths, mget w.fs (join (join b i.name) i.version) = none)) ∧
      mget (Files.run w.fs steps) (dir ++ [c!"bundle.json"]) = some (.file (w.json m)) ∧
      mget (Files.run w.fs steps) (dir ++ [c!"bundle.yaml"]) = some (.file (yaml m)) ∧
      mget (Files.run w.fs steps) (dir ++ [c!"context.rxt"]) = some (.file (w.rxt rs l)) ∧
      ∀ x ∈ [c!"activate.ps1", c!"activate.bat"], ∃ c, mget (Files.run w.fs steps) (dir ++ [x]) = some (.file c) := by
  obtain ⟨m, fs, h1, h2, h3, h4, h4', _, h5, h6, h7, _, h8, h9⟩ := make_files (bundle_make hr hl h)
  rw [hdir]
  refine ⟨m, h1, h2, h3, h4, h4', h5, h6, h7, fun x hx => ?_⟩
  simp only [List.mem_cons, List.not_mem_nil, or_false] at hx
  rcases hx with rfl | rfl
  · exact ⟨_, h8⟩
  · exact ⟨_, h9⟩

/-- C174: the lines of `bundle.yaml`, for texts of one line. -/
theorem C174_yaml (m : Meta) (hn : '\n' ∉ m.name) (hc : '\n' ∉ m.created) (hr : ∀ r ∈ m.requests, '\n' ∉ r)
    (hp : ∀ p ∈ m.packages, '\n' ∉ p.name ∧ '\n' ∉ p.version) :
    splitChar '\n' (yaml m) = [c!"name: " ++ m.name, c!"version: 1", c!"created_at: " ++ m.created, c!"requests:"] ++
      m.requests.map (fun r => c!"  - " ++ r) ++ [c!"packages:"] ++
      m.packages.flatMap (fun p => [c!"  - name: " ++ p.name, c!"    version: " ++ p.version]) ++ [[]] := by
  have hsplit : splitChar '\n' (joinWith c!"\n" (yamlLines m ++ [[]])) = yamlLines m ++ [[]] := by
    refine splitChar_join (by simp) ?_
    intro x hx
    unfold yamlLines at hx
    simp only [List.mem_append, List.mem_cons, List.not_mem_nil, or_false, List.mem_map, List.mem_flatMap] at hx
    rcases hx with (((((rfl | rfl | rfl | rfl) | ⟨r, h, rfl⟩) | rfl) | ⟨p, h, (rfl | rfl)⟩) | rfl)
    · simp [hn]
    · decide
    · simp [hc]
    · decide
    · simp [hr r h]
    · decide
    · simp [(hp p h).1]
    · simp [(hp p h).2]
    · decide
  have hj : ∀ l : List Str, l ≠ [] → joinWith c!"\n" (l ++ [[]]) = joinWith c!"\n" l ++ c!"\n" := by
    intro l
    induction l with
    | nil => intro h; exact absurd rfl h
    | cons x l ih =>
      intro _
      cases l with
      | nil => simp [joinWith]
      | cons y l =>
        have := ih (by simp)
        show x ++ c!"\n" ++ joinWith c!"\n" (y :: l ++ [[]]) = x ++ c!"\n" ++ joinWith c!"\n" (y :: l) ++ c!"\n"
        rw [this]; simp
  have : yaml m = joinWith c!"\n" (yamlLines m ++ [[]]) := by
    rw [hj _ (by simp [yamlLines])]; rfl
  rw [this, hsplit]
  rfl

/-- C174 is false of versions as YAML reads them: 3.1 and 3.10 are the same number. -/
theorem C174_version_false (name : Str) : ∃ i j : Info, i.version ≠ j.version ∧ i.name = name ∧ j.name = name ∧
    (∀ t, (yamlLines ⟨[], [i], t, name⟩).getLast? = some (c!"    version: " ++ i.version)) ∧
    (∀ t, (yamlLines ⟨[], [j], t, name⟩).getLast? = some (c!"    version: " ++ j.version)) ∧
    scalar i.version = scalar j.version := by
  refine ⟨⟨name, c!"3.1", [], none⟩, ⟨name, c!"3.10", [], none⟩, by simp, rfl, rfl, fun t => ?_, fun t => ?_, ?_⟩
  · simp [yamlLines]
  · simp [yamlLines]
  · show scalar c!"3.1" = scalar c!"3.10"
    decide

end Rez.Props
