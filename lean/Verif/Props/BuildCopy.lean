import Verif.Spec.BuildCopy
import Verif.Model.BuildEnv
import Verif.Props.PackageFiles
/-!
# C147: installing by copying
-/
namespace Rez.Props
open Rez Rez.Files Rez.Spec.Files Rez.Build Rez.Build.Spec

namespace BuildCopyLemmas
open FilesLemmas

/-- A step of copying to `d`. -/
def Near (d : Path) (s : Step) : Prop := d <+: path s ∨ ∃ q, q <+: d ∧ s = .mkdir q

theorem near_mono {d d' : Path} (h : d <+: d') {s : Step} (hs : Near d' s) : Near d s := by
  rcases hs with hs | ⟨q, hq, rfl⟩
  · exact Or.inl (h.trans hs)
  · rcases List.prefix_or_prefix_of_prefix h hq with h1 | h1
    · exact Or.inl h1
    · exact Or.inr ⟨q, h1, rfl⟩

theorem prefix_self_append {p : Path} (r : Path) : p <+: p ++ r := List.prefix_append p r

theorem each_near {sub : FS → Path → Path → List Step × CopyEnd} (hsub : ∀ fs s d, ∀ t ∈ (sub fs s d).1, Near d t)
    (skip : Str → Bool) (src dst : Path) (fs : FS) (l : List (Str × Entry)) :
    ∀ t ∈ (copyEach sub skip src dst fs l).1, Near dst t := by
  induction l generalizing fs with
  | nil => intro t ht; simp [copyEach] at ht
  | cons a l ih =>
    obtain ⟨x, e⟩ := a
    have hone : ∀ t ∈ (copyOne sub src dst fs x e).1, Near dst t := by
      intro t ht
      cases e with
      | dir => exact near_mono (prefix_self_append _) (hsub _ _ _ t ht)
      | file c =>
        simp only [copyOne] at ht
        split at ht
        · simp at ht
        · simp only [List.mem_cons, List.not_mem_nil, or_false] at ht
          rcases ht with rfl | rfl
          · exact Or.inl (prefix_self_append _)
          · exact Or.inl (prefix_self_append _)
      | link c => simp [copyOne] at ht
      | special => simp [copyOne] at ht
    unfold copyEach
    by_cases hs : skip x = true
    · rw [if_pos hs]; exact ih fs
    · rw [if_neg hs]
      rcases hc : copyOne sub src dst fs x e with ⟨s, r⟩
      rw [hc] at hone
      cases r with
      | done n =>
        simp only
        have hr := ih (run fs s)
        rcases hc2 : copyEach sub skip src dst (run fs s) l with ⟨s', r'⟩
        rw [hc2] at hr
        intro t ht
        have ht' : t ∈ s ++ s' := by cases r' <;> exact ht
        rcases List.mem_append.1 ht' with h1 | h1
        · exact hone t h1
        · exact hr t h1
      | failed => exact hone
      | unfinished => exact hone

theorem dir_near (order : Listing) (skip : Str → Bool) (n : Nat) (fs : FS) (src dst : Path) :
    ∀ t ∈ (copyDir order skip n fs src dst).1, Near dst t := by
  induction n generalizing skip fs src dst with
  | zero => intro t ht; simp [copyDir] at ht
  | succ n ih =>
    unfold copyDir
    split
    · intro t ht; simp at ht
    · intro t ht
      rcases List.mem_append.1 ht with h | h
      · unfold mkdirAll at h
        obtain ⟨q, hq, rfl⟩ := List.mem_map.1 h
        exact Or.inr ⟨q, (List.mem_inits q dst).1 hq, rfl⟩
      · exact each_near (fun fs s d => ih _ fs s d) skip src dst _ _ t h

theorem run_near {d : Path} {steps : List Step} (h : ∀ s ∈ steps, Near d s) (fs : FS) : Within fs d (run fs steps) := by
  induction steps generalizing fs with
  | nil => intro q _; exact Or.inl rfl
  | cons s steps ih =>
    intro q hq
    have h1 := ih (fun t ht => h t (List.mem_cons_of_mem _ ht)) (s.apply fs) q hq
    have hs := h s List.mem_cons_self
    show mget (run (s.apply fs) steps) q = mget fs q ∨ _ ∧ _ ∧ mget (run (s.apply fs) steps) q = _
    have h2 : mget (s.apply fs) q = mget fs q ∨ (q <+: d ∧ mget fs q = none ∧ mget (s.apply fs) q = some .dir) := by
      rcases hs with hs | ⟨p, hp, rfl⟩
      · exact Or.inl (apply_other fs s (fun hc => hq (hc ▸ hs)))
      · by_cases hpq : p = q
        · subst hpq
          simp only [Step.apply]
          cases hm : mget fs p with
          | none => right; refine ⟨hp, rfl, ?_⟩; simp [mget_mset]
          | some e => left; simp [hm]
        · exact Or.inl (apply_other fs _ hpq)
    rcases h2 with h2 | ⟨h2, h3, h4⟩
    · rcases h1 with h1 | ⟨h5, h6, h7⟩
      · left; rw [h1, h2]
      · right; exact ⟨h5, h2 ▸ h6, h7⟩
    · rcases h1 with h1 | ⟨h5, h6, h7⟩
      · right; exact ⟨h2, h3, h1.trans h4⟩
      · rw [h4] at h6; cases h6

/-- Copying to a directory apart from the source leaves the source alone. -/
theorem near_source {src dst : Path} (ha : Apart src dst) {steps : List Step} (h : ∀ s ∈ steps, Near dst s) (fs : FS) (r : Path) :
    mget (run fs steps) (src ++ r) = mget fs (src ++ r) := by
  have hn : ¬ dst <+: src ++ r := by
    intro hc
    rcases List.prefix_or_prefix_of_prefix hc (prefix_self_append r) with h1 | h1
    · exact ha.2 h1
    · exact ha.1 h1
  rcases run_near h fs (src ++ r) hn with h1 | ⟨h1, _⟩
  · exact h1
  · exact absurd ((prefix_self_append r).trans h1) ha.1

theorem apart_push {src dst : Path} (h : Apart src dst) (x y : Str) : Apart (src ++ [x]) (dst ++ [y]) := by
  refine ⟨fun hc => ?_, fun hc => ?_⟩
  · rcases List.prefix_or_prefix_of_prefix ((prefix_self_append [x]).trans hc) (prefix_self_append [y]) with h1 | h1
    · exact h.1 h1
    · exact h.2 h1
  · rcases List.prefix_or_prefix_of_prefix ((prefix_self_append [y]).trans hc) (prefix_self_append [x]) with h1 | h1
    · exact h.2 h1
    · exact h.1 h1

theorem mem_children {fs : FS} {p : Path} {x : Str} {e : Entry} : (x, e) ∈ children fs p ↔ (p ++ [x], e) ∈ fs := by
  unfold children
  rw [List.mem_filterMap]
  constructor
  · rintro ⟨⟨q, e'⟩, hq, h⟩
    simp only at h
    split at h
    · rename_i y hy
      split at h
      · rename_i hd
        simp only [Option.some.injEq, Prod.mk.injEq] at h
        obtain ⟨rfl, rfl⟩ := h
        obtain ⟨l, hl⟩ := List.getLast?_eq_some_iff.1 hy
        subst hl
        simp only [List.dropLast_concat] at hd
        subst hd
        exact hq
      · cases h
    · cases h
  · intro h
    exact ⟨_, h, by simp⟩

theorem children_nodup {fs : FS} (hn : (mkeys fs).Nodup) (p : Path) : ((children fs p).map Prod.fst).Nodup := by
  have hsub : ((children fs p).map fun c => p ++ [c.1]).Nodup := by
    have : ((children fs p).map fun c => p ++ [c.1]).Sublist (mkeys fs) := by
      unfold children mkeys
      clear hn
      induction fs with
      | nil => simp
      | cons a fs ih =>
        obtain ⟨q, e⟩ := a
        rw [List.filterMap_cons]
        split
        · simp only [List.map_cons]; exact ih.cons _
        · rename_i b hb
          split at hb
          · rename_i y hy
            split at hb
            · rename_i hd
              simp only [Option.some.injEq] at hb
              subst hb
              obtain ⟨l, hl⟩ := List.getLast?_eq_some_iff.1 hy
              simp only at hl hd
              subst hl
              simp only [List.dropLast_concat] at hd
              subst hd
              simp only [List.map_cons]
              exact ih.cons_cons _
            · cases hb
          · cases hb
    exact this.nodup hn
  have : ((children fs p).map fun c => p ++ [c.1]) = ((children fs p).map Prod.fst).map fun x => p ++ [x] := by
    rw [List.map_map]; rfl
  rw [this] at hsub
  exact List.Nodup.of_map _ hsub

theorem not_blocked {fs : FS} {p : Path} (h : ¬ blocked fs p = true) {q : Path} (hq : q <+: p) :
    mget fs q = none ∨ mget fs q = some .dir := by
  have h' : blocked fs p = false := by simpa using h
  unfold blocked at h'
  rw [List.any_eq_false] at h'
  have := h' q ((List.mem_inits q p).2 hq)
  cases hm : mget fs q with
  | none => exact Or.inl rfl
  | some e => rw [hm] at this; simp at this; exact Or.inr (by rw [this])

theorem mkdirAll_dir {fs : FS} {p : Path} (h : ¬ blocked fs p = true) {q : Path} (hq : q <+: p) :
    mget (run fs (mkdirAll p)) q = some .dir := by
  rw [mkdirAll_get, if_pos hq]
  rcases not_blocked h hq with h1 | h1 <;> rw [h1] <;> rfl

/-- Copying into a directory of the source is never done. -/
theorem each_endless {sub : FS → Path → Path → List Step × CopyEnd} {skip : Str → Bool} {src dst : Path} {x : Str}
    (hsub : ∀ fs k, (sub fs (src ++ [x]) (dst ++ [x])).2 ≠ .done k) (hx : skip x = false) (l : List (Str × Entry))
    (hl : (x, Entry.dir) ∈ l) (fs : FS) (k : Nat) : (copyEach sub skip src dst fs l).2 ≠ .done k := by
  induction l generalizing fs k with
  | nil => simp at hl
  | cons a l ih =>
    obtain ⟨y, e⟩ := a
    unfold copyEach
    rcases List.mem_cons.1 hl with hl | hl
    · simp only [Prod.mk.injEq] at hl
      obtain ⟨rfl, rfl⟩ := hl
      rw [if_neg (by simp [hx])]
      have := hsub fs
      rcases hc : copyOne sub src dst fs x Entry.dir with ⟨s, r⟩
      cases r with
      | done n => exact absurd (congrArg Prod.snd hc) (this n)
      | failed => simp
      | unfinished => simp
    · split
      · exact ih hl fs k
      · rcases hc : copyOne sub src dst fs y e with ⟨s, r⟩
        cases r with
        | done n =>
          simp only
          have hi := ih hl (run fs s)
          rcases hc2 : copyEach sub skip src dst (run fs s) l with ⟨s', r'⟩
          cases r' with
          | done n' => exact absurd (congrArg Prod.snd hc2) (hi n')
          | failed => simp
          | unfinished => simp
        | failed => simp
        | unfinished => simp

theorem mget_mem_children {fs : FS} {p : Path} {x : Str} {e : Entry} (h : mget fs (p ++ [x]) = some e) :
    (x, e) ∈ children fs p := mem_children.2 (mget_some_mem h)

theorem dir_endless {order : Listing} (ho : ListsAll order) (skip : Str → Bool) (n : Nat) (fs : FS) (src : Path) (x : Str)
    (r : Path) (hx : skip x = false) (k : Nat) : (copyDir order skip n fs src (src ++ x :: r)).2 ≠ .done k := by
  induction n generalizing skip fs src x r k with
  | zero => simp [copyDir]
  | succ n ih =>
    unfold copyDir
    split
    · simp
    · rename_i hb
      have hd : mget (run fs (mkdirAll (src ++ x :: r))) (src ++ [x]) = some .dir :=
        mkdirAll_dir hb ⟨r, by simp⟩
      refine each_endless (x := x) (fun fs' k' => ?_) hx _ ((ho _).mem_iff.2 (mget_mem_children hd)) _ k
      have e : src ++ x :: r ++ [x] = (src ++ [x]) ++ (r ++ [x]) := by simp
      rw [e]
      cases r with
      | nil => exact ih _ fs' (src ++ [x]) x [] rfl k'
      | cons y r => exact ih _ fs' (src ++ [x]) y (r ++ [x]) rfl k'

/-- Copying to a directory apart from the source ends. -/
theorem dir_ends {order : Listing} (ho : ListsAll order) (skip : Str → Bool) (n : Nat) (fs : FS) (src dst : Path)
    (ha : Apart src dst) (hn : (mkeys fs).Nodup) (hdep : ∀ r, (mget fs (src ++ r)).isSome → r.length < n + 1) :
    (copyDir order skip (n + 1) fs src dst).2 ≠ .unfinished := by
  induction n generalizing skip fs src dst with
  | zero =>
    unfold copyDir
    split
    · simp
    · have hsrc : ∀ r, mget (run fs (mkdirAll dst)) (src ++ r) = mget fs (src ++ r) :=
        fun r => near_source ha (fun t ht => by
          unfold mkdirAll at ht
          obtain ⟨q, hq, rfl⟩ := List.mem_map.1 ht
          exact Or.inr ⟨q, (List.mem_inits q dst).1 hq, rfl⟩) fs r
      have : order (children (run fs (mkdirAll dst)) src) = [] := by
        rw [List.eq_nil_iff_forall_not_mem]
        rintro ⟨x, e⟩ hx
        have h1 := mem_children.1 ((ho _).mem_iff.1 hx)
        have h2 := mget_of_mem (nodup_run hn _) h1
        rw [hsrc] at h2
        have := hdep [x] (by rw [h2]; rfl)
        simp at this
      simp [this, copyEach]
  | succ n ih =>
    unfold copyDir
    split
    · simp
    · rename_i hb
      have hmk : ∀ t ∈ mkdirAll dst, Near dst t := fun t ht => by
        unfold mkdirAll at ht
        obtain ⟨q, hq, rfl⟩ := List.mem_map.1 ht
        exact Or.inr ⟨q, (List.mem_inits q dst).1 hq, rfl⟩
      have hsrc : ∀ r, mget (run fs (mkdirAll dst)) (src ++ r) = mget fs (src ++ r) := fun r => near_source ha hmk fs r
      simp only
      generalize order (children (run fs (mkdirAll dst)) src) = l
      have hn1 := nodup_run hn (mkdirAll dst)
      generalize hfs1 : run fs (mkdirAll dst) = fs1 at hn1 hsrc
      have key : ∀ (l : List (Str × Entry)) (fs2 : FS), (mkeys fs2).Nodup → (∀ r, mget fs2 (src ++ r) = mget fs (src ++ r)) →
          (copyEach (copyDir order (fun _ => false) (n + 1)) skip src dst fs2 l).2 ≠ .unfinished := by
        intro l
        induction l with
        | nil => intro fs2 _ _; simp [copyEach]
        | cons a l ihl =>
          obtain ⟨x, e⟩ := a
          intro fs2 hn2 hs2
          unfold copyEach
          split
          · exact ihl fs2 hn2 hs2
          · have hone : (copyOne (copyDir order (fun _ => false) (n + 1)) src dst fs2 x e).2 ≠ .unfinished := by
              cases e with
              | dir =>
                refine ih _ fs2 _ _ (apart_push ha x x) hn2 fun r hr => ?_
                have e2 : src ++ [x] ++ r = src ++ (x :: r) := by simp
                rw [e2, hs2] at hr
                have := hdep (x :: r) hr
                simp only [List.length_cons] at this
                omega
              | file c => simp only [copyOne]; split <;> simp
              | link c => simp [copyOne]
              | special => simp [copyOne]
            have hnear : ∀ t ∈ (copyOne (copyDir order (fun _ => false) (n + 1)) src dst fs2 x e).1, Near dst t := by
              intro t ht
              cases e with
              | dir => exact near_mono (prefix_self_append _) (dir_near _ _ _ _ _ _ t ht)
              | file c =>
                simp only [copyOne] at ht
                split at ht
                · simp at ht
                · simp only [List.mem_cons, List.not_mem_nil, or_false] at ht
                  rcases ht with rfl | rfl
                  · exact Or.inl (prefix_self_append _)
                  · exact Or.inl (prefix_self_append _)
              | link c => simp [copyOne] at ht
              | special => simp [copyOne] at ht
            rcases hc : copyOne (copyDir order (fun _ => false) (n + 1)) src dst fs2 x e with ⟨s, r⟩
            rw [hc] at hone hnear
            cases r with
            | done k =>
              simp only
              have hi := ihl (run fs2 s) (nodup_run hn2 s) (fun r => by rw [near_source ha hnear fs2 r]; exact hs2 r)
              rcases hc2 : copyEach (copyDir order (fun _ => false) (n + 1)) skip src dst (run fs2 s) l with ⟨s', r'⟩
              rw [hc2] at hi
              cases r' with
              | done k' => simp
              | failed => simp
              | unfinished => exact absurd rfl hi
            | failed => simp
            | unfinished => exact absurd rfl hone
      exact key l fs1 hn1 hsrc

/-- What a copy makes of a file system. -/
structure Good (skip : Str → Bool) (fs : FS) (src dst : Path) (fs' : FS) : Prop where
  ok : Ok fs'
  dir : mget fs' dst = some .dir
  get : ∀ x r, mget fs' (dst ++ x :: r) =
    if skip x = false ∧ (mget fs (src ++ x :: r)).isSome then mget fs (src ++ x :: r) else mget fs (dst ++ x :: r)

theorem prefix_ne_push {d : Path} {x y : Str} (h : x ≠ y) (r : Path) : ¬ d ++ [x] <+: d ++ y :: r := by
  rintro ⟨t, ht⟩
  simp only [List.append_assoc, List.append_cancel_left_eq, List.cons_append, List.nil_append, List.cons.injEq] at ht
  exact h ht.1

theorem push_prefix_ne {d : Path} {x y : Str} (h : x ≠ y) (r : Path) : ¬ d ++ y :: r <+: d ++ [x] := by
  rintro ⟨t, ht⟩
  simp only [List.append_assoc, List.append_cancel_left_eq, List.cons_append, List.cons.injEq] at ht
  exact h ht.1.symm

theorem near_other {d : Path} {x : Str} {steps : List Step} (h : ∀ s ∈ steps, Near (d ++ [x]) s) (fs : FS) {y : Str} (hy : x ≠ y)
    (r : Path) : mget (run fs steps) (d ++ y :: r) = mget fs (d ++ y :: r) := by
  rcases run_near h fs (d ++ y :: r) (prefix_ne_push hy r) with h1 | ⟨h1, _⟩
  · exact h1
  · exact absurd h1 (push_prefix_ne hy r)

theorem ok_write {fs : FS} (hok : Ok fs) {d : Path} {x : Str} {c : Str} (hd : mget fs d = some .dir)
    (hx : mget fs (d ++ [x]) ≠ some .dir) :
    Ok (run fs [.create (d ++ [x]), .write (d ++ [x]) (.file c)]) := by
  refine ⟨nodup_run hok.nodup _, fun p q hq hne hp => ?_⟩
  have hget : ∀ p, mget (run fs [.create (d ++ [x]), .write (d ++ [x]) (.file c)]) p =
      if p = d ++ [x] then some (.file c) else mget fs p := by
    intro p
    simp only [run, List.foldl_cons, List.foldl_nil, Step.apply, mget_mset]
    split <;> rfl
  rw [hget] at hp ⊢
  by_cases h1 : p = d ++ [x]
  · subst h1
    rw [if_neg hne]
    have hqd : q <+: d := by
      rcases List.prefix_concat_iff.1 hq with h | h
      · exact absurd h hne
      · exact h
    by_cases hqe : q = d
    · rw [hqe]; exact hd
    · exact hok.parents d q hqd hqe (by rw [hd]; rfl)
  · rw [if_neg h1] at hp
    by_cases h2 : q = d ++ [x]
    · subst h2
      exact absurd (hok.parents p _ hq hne hp) hx
    · rw [if_neg h2]; exact hok.parents p q hq hne hp

theorem ok_mkdirAll {fs : FS} (hok : Ok fs) {d : Path} (hb : ¬ blocked fs d = true) : Ok (run fs (mkdirAll d)) := by
  refine ⟨nodup_run hok.nodup _, fun p q hq hne hp => ?_⟩
  by_cases h1 : p <+: d
  · exact mkdirAll_dir hb (hq.trans h1)
  · rw [mkdirAll_get, if_neg h1] at hp
    rw [mkdirAll_get, hok.parents p q hq hne hp]
    split <;> rfl

theorem each_good {sub : FS → Path → Path → List Step × CopyEnd} {skip : Str → Bool} {src dst : Path} (ha : Apart src dst)
    (hsub : ∀ fs s d st k, Apart s d → Ok fs → mget fs s = some .dir → sub fs s d = (st, .done k) →
      Good (fun _ => false) fs s d (run fs st))
    (hnear : ∀ fs s d, ∀ t ∈ (sub fs s d).1, Near d t)
    (l : List (Str × Entry)) (fs : FS) (hok : Ok fs) (hd : mget fs dst = some .dir) (hl : (l.map Prod.fst).Nodup)
    (hm : ∀ x e, (x, e) ∈ l → mget fs (src ++ [x]) = some e) (st : List Step) (k : Nat)
    (h : copyEach sub skip src dst fs l = (st, .done k)) :
    Ok (run fs st) ∧ mget (run fs st) dst = some .dir ∧ ∀ x r, mget (run fs st) (dst ++ x :: r) =
      if x ∈ l.map Prod.fst ∧ skip x = false ∧ (mget fs (src ++ x :: r)).isSome then mget fs (src ++ x :: r)
      else mget fs (dst ++ x :: r) := by
  induction l generalizing fs st k with
  | nil =>
    simp only [copyEach, Prod.mk.injEq] at h
    obtain ⟨rfl, _⟩ := h
    exact ⟨hok, hd, fun x r => by simp [run]⟩
  | cons a l ih =>
    obtain ⟨x, e⟩ := a
    obtain ⟨hxl, hl'⟩ := List.nodup_cons.1 hl
    have hm' : ∀ y e', (y, e') ∈ l → mget fs (src ++ [y]) = some e' := fun y e' hy => hm y e' (List.mem_cons_of_mem _ hy)
    have hx := hm x e List.mem_cons_self
    unfold copyEach at h
    by_cases hs : skip x = true
    · rw [if_pos hs] at h
      obtain ⟨h1, h0, h2⟩ := ih fs hok hd hl' hm' st k h
      refine ⟨h1, h0, fun y r => ?_⟩
      rw [h2]
      by_cases hy : y = x
      · subst hy
        rw [if_neg (by rintro ⟨hc, _⟩; exact hxl hc), if_neg (by rintro ⟨_, hc, _⟩; simp [hs] at hc)]
      · simp only [List.map_cons, List.mem_cons, hy, false_or]
    · rw [if_neg hs] at h
      have hs' : skip x = false := by simpa using hs
      -- what the copy of the first entry does
      have hone : ∀ s n, copyOne sub src dst fs x e = (s, .done n) →
          Ok (run fs s) ∧ (∀ t ∈ s, Near (dst ++ [x]) t) ∧ mget (run fs s) dst = some .dir ∧
          ∀ r, mget (run fs s) (dst ++ x :: r) =
            if (mget fs (src ++ x :: r)).isSome then mget fs (src ++ x :: r) else mget fs (dst ++ x :: r) := by
        intro s n hc
        cases e with
        | dir =>
          have hn := hnear fs (src ++ [x]) (dst ++ [x])
          simp only [copyOne] at hc
          rw [hc] at hn
          have hg := hsub fs _ _ s n (apart_push ha x x) hok hx hc
          refine ⟨hg.ok, hn, ?_, fun r => ?_⟩
          · exact hg.ok.parents (dst ++ [x]) dst (prefix_self_append _) (by simp) (by rw [hg.dir]; rfl)
          · cases r with
            | nil => rw [hg.dir, hx]; rfl
            | cons y r =>
              have h3 := hg.get y r
              simp only [true_and, List.append_assoc, List.cons_append, List.nil_append] at h3
              exact h3
        | file c =>
          simp only [copyOne] at hc
          split at hc
          · cases hc
          · rename_i hnd
            have hne : src ≠ dst := fun hc => ha.1 (hc ▸ List.prefix_rfl)
            rw [if_neg hne] at hc
            simp only [Prod.mk.injEq] at hc
            obtain ⟨rfl, _⟩ := hc
            have hget : ∀ p, mget (run fs [.create (dst ++ [x]), .write (dst ++ [x]) (.file c)]) p =
                if p = dst ++ [x] then some (.file c) else mget fs p := by
              intro p
              simp only [run, List.foldl_cons, List.foldl_nil, Step.apply, mget_mset]
              split <;> rfl
            refine ⟨ok_write hok hd hnd, ?_, ?_, fun r => ?_⟩
            · intro t ht
              simp only [List.mem_cons, List.not_mem_nil, or_false] at ht
              rcases ht with rfl | rfl <;> exact Or.inl List.prefix_rfl
            · rw [hget, if_neg (by intro hc; have := congrArg List.length hc; simp at this)]; exact hd
            · cases r with
              | nil => rw [hget, if_pos rfl, hx]; rfl
              | cons y r =>
                have hnone : mget fs (src ++ x :: y :: r) = none := by
                  cases hq : mget fs (src ++ x :: y :: r) with
                  | none => rfl
                  | some e =>
                    have := hok.parents (src ++ x :: y :: r) (src ++ [x]) ⟨y :: r, by simp⟩ (by simp) (by rw [hq]; rfl)
                    rw [hx] at this; cases this
                rw [hnone, hget, if_neg (by simp)]; rfl
        | link c => simp [copyOne] at hc
        | special => simp [copyOne] at hc
      rcases hc : copyOne sub src dst fs x e with ⟨s, r⟩
      rw [hc] at h
      cases r with
      | failed => simp at h
      | unfinished => simp at h
      | done n =>
        simp only at h
        obtain ⟨h1, h2, h3, h4⟩ := hone s n hc
        have hsrc : ∀ r, mget (run fs s) (src ++ r) = mget fs (src ++ r) :=
          fun r => near_source ha (fun t ht => near_mono (prefix_self_append _) (h2 t ht)) fs r
        rcases hc2 : copyEach sub skip src dst (run fs s) l with ⟨s', r'⟩
        rw [hc2] at h
        cases r' with
        | failed => simp at h
        | unfinished => simp at h
        | done n' =>
          simp only [Prod.mk.injEq] at h
          obtain ⟨rfl, _⟩ := h
          obtain ⟨h5, h0, h6⟩ := ih (run fs s) h1 h3 hl' (fun y e' hy => by rw [hsrc]; exact hm' y e' hy) s' n' hc2
          rw [FilesLemmas.run_append]
          refine ⟨h5, h0, fun y r => ?_⟩
          rw [h6, hsrc]
          by_cases hy : y = x
          · subst hy
            rw [if_neg (by rintro ⟨hc, _⟩; exact hxl hc), h4]
            simp [hs']
          · simp only [List.map_cons, List.mem_cons, hy, false_or]
            rw [near_other h2 fs (Ne.symm hy) r]

theorem dir_good {order : Listing} (ho : ListsAll order) (skip : Str → Bool) (n : Nat) (fs : FS) (src dst : Path) (st : List Step)
    (k : Nat) (ha : Apart src dst) (hok : Ok fs) (h : copyDir order skip n fs src dst = (st, .done k)) :
    Good skip fs src dst (run fs st) := by
  induction n generalizing skip fs src dst st k with
  | zero => simp [copyDir] at h
  | succ n ih =>
    unfold copyDir at h
    split at h
    · simp at h
    · rename_i hb
      simp only [Prod.mk.injEq] at h
      obtain ⟨rfl, h2⟩ := h
      have hmk : ∀ t ∈ mkdirAll dst, Near dst t := fun t ht => by
        unfold mkdirAll at ht
        obtain ⟨q, hq, rfl⟩ := List.mem_map.1 ht
        exact Or.inr ⟨q, (List.mem_inits q dst).1 hq, rfl⟩
      have hok1 := ok_mkdirAll hok hb
      have hsrc : ∀ r, mget (run fs (mkdirAll dst)) (src ++ r) = mget fs (src ++ r) := fun r => near_source ha hmk fs r
      have hdst : ∀ x r, mget (run fs (mkdirAll dst)) (dst ++ x :: r) = mget fs (dst ++ x :: r) := fun x r => by
        rw [mkdirAll_get, if_neg]
        rintro ⟨t, ht⟩
        have := congrArg List.length ht
        simp at this
      have hmem : ∀ x e, (x, e) ∈ order (children (run fs (mkdirAll dst)) src) →
          mget (run fs (mkdirAll dst)) (src ++ [x]) = some e :=
        fun x e hx => mget_of_mem hok1.nodup (mem_children.1 ((ho _).mem_iff.1 hx))
      have hnd : ((order (children (run fs (mkdirAll dst)) src)).map Prod.fst).Nodup :=
        (((ho _).map Prod.fst).nodup_iff).2 (children_nodup hok1.nodup src)
      obtain ⟨h3, h0, h4⟩ := each_good (skip := skip) ha
        (fun fs' s d st' k' h1 h2 _ h4 => ih _ fs' s d st' k' h1 h2 h4)
        (fun fs' s d => dir_near order _ n fs' s d) _ _ hok1 (mkdirAll_dir hb List.prefix_rfl) hnd hmem _ k
        (Prod.ext rfl h2)
      rw [FilesLemmas.run_append]
      refine ⟨h3, h0, fun x r => ?_⟩
      · rw [h4, hsrc, hdst]
        by_cases hsome : (mget fs (src ++ x :: r)).isSome
        · have hx : x ∈ (order (children (run fs (mkdirAll dst)) src)).map Prod.fst := by
            have : ∃ e, mget fs (src ++ [x]) = some e := by
              cases r with
              | nil => exact Option.isSome_iff_exists.1 hsome
              | cons y r => exact ⟨_, hok.parents _ (src ++ [x]) ⟨y :: r, by simp⟩ (by simp) hsome⟩
            obtain ⟨e, he⟩ := this
            rw [← hsrc] at he
            exact List.mem_map.2 ⟨(x, e), (ho _).mem_iff.2 (mget_mem_children he), rfl⟩
          simp only [hx, true_and]
        · rw [if_neg (by rintro ⟨_, _, hc⟩; exact hsome hc), if_neg (by rintro ⟨_, hc⟩; exact hsome hc)]

/-- Copying directories and files to a place where there is nothing is done. -/
theorem dir_done {order : Listing} (ho : ListsAll order) (skip : Str → Bool) (n : Nat) (fs : FS) (src dst : Path)
    (ha : Apart src dst) (hok : Ok fs) (hdep : ∀ r, (mget fs (src ++ r)).isSome → r.length < n + 1)
    (hkind : ∀ x r e, skip x = false → mget fs (src ++ x :: r) = some e → e = .dir ∨ ∃ c, e = .file c)
    (hb : ¬ blocked fs dst = true) (hfree : ∀ x r, mget fs (dst ++ x :: r) = none) :
    ∃ st k, copyDir order skip (n + 1) fs src dst = (st, .done k) := by
  induction n generalizing skip fs src dst with
  | zero =>
    unfold copyDir
    rw [if_neg hb]
    have hmk : ∀ t ∈ mkdirAll dst, Near dst t := fun t ht => by
      unfold mkdirAll at ht
      obtain ⟨q, hq, rfl⟩ := List.mem_map.1 ht
      exact Or.inr ⟨q, (List.mem_inits q dst).1 hq, rfl⟩
    have : order (children (run fs (mkdirAll dst)) src) = [] := by
      rw [List.eq_nil_iff_forall_not_mem]
      rintro ⟨x, e⟩ hx
      have h1 := mem_children.1 ((ho _).mem_iff.1 hx)
      have h2 := mget_of_mem (nodup_run hok.nodup _) h1
      rw [near_source ha hmk fs] at h2
      have := hdep [x] (by rw [h2]; rfl)
      simp at this
    simp only [this, copyEach]
    exact ⟨_, _, rfl⟩
  | succ n ih =>
    unfold copyDir
    rw [if_neg hb]
    have hmk : ∀ t ∈ mkdirAll dst, Near dst t := fun t ht => by
      unfold mkdirAll at ht
      obtain ⟨q, hq, rfl⟩ := List.mem_map.1 ht
      exact Or.inr ⟨q, (List.mem_inits q dst).1 hq, rfl⟩
    have hsrc : ∀ r, mget (run fs (mkdirAll dst)) (src ++ r) = mget fs (src ++ r) := fun r => near_source ha hmk fs r
    have hok1 := ok_mkdirAll hok hb
    have hdst : ∀ x r, mget (run fs (mkdirAll dst)) (dst ++ x :: r) = none := fun x r => by
      rw [mkdirAll_get, if_neg]
      · exact hfree x r
      · rintro ⟨t, ht⟩
        have := congrArg List.length ht
        simp at this
    have key : ∀ (l : List (Str × Entry)) (fs2 : FS), Ok fs2 → mget fs2 dst = some .dir →
        (∀ r, mget fs2 (src ++ r) = mget fs (src ++ r)) → (l.map Prod.fst).Nodup →
        (∀ x e, (x, e) ∈ l → mget fs2 (src ++ [x]) = some e) →
        (∀ x ∈ l.map Prod.fst, ∀ r, mget fs2 (dst ++ x :: r) = none) →
        ∃ st k, copyEach (copyDir order (fun _ => false) (n + 1)) skip src dst fs2 l = (st, .done k) := by
      intro l
      induction l with
      | nil => intro fs2 _ _ _ _ _ _; exact ⟨_, _, rfl⟩
      | cons a l ihl =>
        obtain ⟨x, e⟩ := a
        intro fs2 hok2 hd2 hs2 hl hm hf
        obtain ⟨hxl, hl'⟩ := List.nodup_cons.1 hl
        have hm' : ∀ y e', (y, e') ∈ l → mget fs2 (src ++ [y]) = some e' := fun y e' hy => hm y e' (List.mem_cons_of_mem _ hy)
        have hx := hm x e List.mem_cons_self
        unfold copyEach
        by_cases hs : skip x = true
        · rw [if_pos hs]
          exact ihl fs2 hok2 hd2 hs2 hl' hm' fun y hy => hf y (List.mem_cons_of_mem _ hy)
        · rw [if_neg hs]
          have hs' : skip x = false := by simpa using hs
          have hone : ∃ s k, copyOne (copyDir order (fun _ => false) (n + 1)) src dst fs2 x e = (s, .done k) := by
            rw [hs2] at hx
            rcases hkind x [] e hs' hx with rfl | ⟨c, rfl⟩
            · refine ih _ fs2 _ _ (apart_push ha x x) hok2 ?_ ?_ ?_ ?_
              · intro r hr
                have e2 : src ++ [x] ++ r = src ++ (x :: r) := by simp
                rw [e2, hs2] at hr
                have := hdep (x :: r) hr
                simp only [List.length_cons] at this
                omega
              · intro y r e' _ hy
                have e2 : src ++ [x] ++ y :: r = src ++ (x :: y :: r) := by simp
                rw [e2, hs2] at hy
                exact hkind x (y :: r) e' hs' hy
              · have : blocked fs2 (dst ++ [x]) = false := by
                  unfold blocked
                  rw [List.any_eq_false]
                  intro q hq
                  have hq' := (List.mem_inits q _).1 hq
                  rcases List.prefix_concat_iff.1 hq' with h | h
                  · subst h; rw [hf x (by simp) []]; simp
                  · by_cases hqe : q = dst
                    · subst hqe; rw [hd2]; simp
                    · rw [hok2.parents dst q h hqe (by rw [hd2]; rfl)]; simp
                simp [this]
              · intro y r
                have e2 : dst ++ [x] ++ y :: r = dst ++ (x :: y :: r) := by simp
                rw [e2]; exact hf x (by simp) _
            · simp only [copyOne]
              rw [if_neg (by rw [hf x (by simp) []]; simp)]
              exact ⟨_, _, rfl⟩
          obtain ⟨s, k, hc⟩ := hone
          rw [hc]
          simp only
          have hsk : copyEach (copyDir order (fun _ => false) (n + 1)) (fun _ => false) src dst fs2 [(x, e)] = (s, .done k) := by
            simp [copyEach, hc]
          obtain ⟨h3, h4, h5⟩ := each_good (skip := fun _ => false) ha
            (fun fs' s d st' k' h1 h2 _ h4 => dir_good ho _ _ fs' s d st' k' h1 h2 h4)
            (fun fs' s d => dir_near order _ (n + 1) fs' s d) [(x, e)] fs2 hok2 hd2 (by simp)
            (fun y e' hy => by
              simp only [List.mem_singleton, Prod.mk.injEq] at hy
              obtain ⟨rfl, rfl⟩ := hy
              exact hx) s k hsk
          have hnear : ∀ t ∈ s, Near dst t := by
            have := each_near (fun fs' s d => dir_near order (fun _ => false) (n + 1) fs' s d) (fun _ => false) src dst fs2 [(x, e)]
            rw [hsk] at this
            exact this
          have hs3 : ∀ r, mget (run fs2 s) (src ++ r) = mget fs (src ++ r) := fun r => by
            rw [near_source ha hnear fs2 r]; exact hs2 r
          obtain ⟨s', k', hr⟩ := ihl (run fs2 s) h3 h4 hs3 hl' (fun y e' hy => by rw [hs3, ← hs2]; exact hm' y e' hy) (by
            intro y hy r
            have hne : y ≠ x := fun hc => hxl (hc ▸ hy)
            rw [h5, if_neg (by simp [hne])]
            exact hf y (List.mem_cons_of_mem _ hy) r)
          rw [hr]
          exact ⟨_, _, rfl⟩
    have hmem : ∀ x e, (x, e) ∈ order (children (run fs (mkdirAll dst)) src) →
        mget (run fs (mkdirAll dst)) (src ++ [x]) = some e :=
      fun x e hx => mget_of_mem hok1.nodup (mem_children.1 ((ho _).mem_iff.1 hx))
    have hnd : ((order (children (run fs (mkdirAll dst)) src)).map Prod.fst).Nodup :=
      (((ho _).map Prod.fst).nodup_iff).2 (children_nodup hok1.nodup src)
    obtain ⟨st, k, h⟩ := key _ _ hok1 (mkdirAll_dir hb List.prefix_rfl) hsrc hnd hmem fun x _ r => hdst x r
    simp only [h]
    exact ⟨_, _, rfl⟩

theorem deep (fs : FS) (src : Path) : ∃ n, ∀ r, (mget fs (src ++ r)).isSome → r.length < n + 1 := by
  refine ⟨(fs.map fun e => e.1.length).sum, fun r hr => ?_⟩
  obtain ⟨e, he⟩ := Option.isSome_iff_exists.1 hr
  have hm : (src ++ r).length ∈ fs.map fun e => e.1.length := List.mem_map.2 ⟨_, mget_some_mem he, rfl⟩
  have hle : ∀ (l : List Nat) a, a ∈ l → a ≤ l.sum := by
    intro l
    induction l with
    | nil => intro a ha; simp at ha
    | cons b l ih =>
      intro a ha
      rw [List.sum_cons]
      rcases List.mem_cons.1 ha with rfl | ha
      · omega
      · have := ih a ha; omega
  have := hle _ _ hm
  rw [List.length_append] at this
  omega

end BuildCopyLemmas

open BuildCopyLemmas

/-- The names that are left out are those of the list, and those with one of the endings. -/
theorem C147_leftOut (x : Str) : skipped x = true ↔ x ∈ leftOut ∨ ∃ e ∈ endings, e <:+ x := by
  simp [skipped, leftOut, endings, or_assoc, List.isSuffixOf_iff_suffix]

/-- C147: an installation by copying that succeeds, to a directory that is apart from the source: every file and directory
of the source that is not left out is there as it is in the source; all the rest of the file system, the source and what
was in the directory before included, is as it was, but for directories made on the way. -/
theorem C147_installed (order : Listing) (ho : ListsAll order) (depth : Nat) (fs : FS) (src dst : Path) (steps : List Step)
    (k : Nat) (ha : Apart src dst) (hok : Ok fs) (h : copyInstall order depth fs src dst = (steps, .done k)) :
    (∀ r e, Installed r → mget fs (src ++ r) = some e → mget (run fs steps) (dst ++ r) = some e) ∧
    (∀ r, r ≠ [] → (¬ Installed r ∨ mget fs (src ++ r) = none) → mget (run fs steps) (dst ++ r) = mget fs (dst ++ r)) ∧
    mget (run fs steps) dst = some .dir ∧ (∀ r, mget (run fs steps) (src ++ r) = mget fs (src ++ r)) ∧
    Within fs dst (run fs steps) := by
  have hg := dir_good ho skipped depth fs src dst steps k ha hok h
  have hnear : ∀ t ∈ steps, Near dst t := by
    have := dir_near order skipped depth fs src dst
    unfold copyInstall at h
    rw [h] at this
    exact this
  refine ⟨?_, ?_, hg.dir, fun r => near_source ha hnear fs r, run_near hnear fs⟩
  · rintro r e ⟨x, rest, rfl, hx⟩ he
    rw [hg.get, if_pos ⟨hx, by rw [he]; rfl⟩, he]
  · intro r hr hno
    cases r with
    | nil => exact absurd rfl hr
    | cons x rest =>
      rw [hg.get, if_neg]
      rintro ⟨h1, h2⟩
      rcases hno with hno | hno
      · exact hno ⟨x, rest, rfl, h1⟩
      · rw [hno] at h2; cases h2

/-- C147: it succeeds if the source holds only directories and files and nothing is in the way. -/
theorem C147_succeeds (order : Listing) (ho : ListsAll order) (fs : FS) (src dst : Path) (ha : Apart src dst) (hok : Ok fs)
    (hkind : ∀ r e, Installed r → mget fs (src ++ r) = some e → e = .dir ∨ ∃ c, e = .file c)
    (hway : ∀ q, q <+: dst → q ≠ dst → mget fs q = none ∨ mget fs q = some .dir) (hfree : Gone fs dst) :
    ∃ depth steps k, copyInstall order depth fs src dst = (steps, .done k) := by
  obtain ⟨n, hn⟩ := deep fs src
  obtain ⟨st, k, h⟩ := dir_done ho skipped n fs src dst ha hok hn
    (fun x r e hx he => hkind (x :: r) e ⟨x, r, rfl, hx⟩ he) (by
      have : blocked fs dst = false := by
        unfold blocked
        rw [List.any_eq_false]
        intro q hq
        have hq' := (List.mem_inits q _).1 hq
        by_cases hqe : q = dst
        · subst hqe
          have := hfree []
          rw [List.append_nil] at this
          rw [this]; simp
        · rcases hway q hq' hqe with h | h <;> rw [h] <;> simp
      simp [this]) (fun x r => hfree (x :: r))
  exact ⟨_, st, k, h⟩

/-- C147: wherever it is stopped, and whatever the directories are, only the directory to install in, what is in it and the
directories that lead to it have changed. -/
theorem C147_crash (order : Listing) (depth : Nat) (fs : FS) (src dst : Path) (pre : List Step)
    (h : Stops (copyInstall order depth fs src dst).1 pre) : Within fs dst (run fs pre) :=
  run_near (fun t ht => dir_near order skipped depth fs src dst t (h.subset ht)) fs

/-- C147: the number of files that a copy reports is the number of files that it wrote. -/
theorem C147_count (order : Listing) (depth : Nat) (fs : FS) (src dst : Path) (steps : List Step) (k : Nat)
    (h : copyInstall order depth fs src dst = (steps, .done k)) : (steps.filter isWrite).length = k := by
  have hmk : ∀ p, (mkdirAll p).filter isWrite = [] := by
    intro p
    rw [List.filter_eq_nil_iff]
    intro t ht
    unfold mkdirAll at ht
    obtain ⟨q, _, rfl⟩ := List.mem_map.1 ht
    simp [isWrite]
  have hone : ∀ (sub : FS → Path → Path → List Step × CopyEnd)
      (_ : ∀ fs s d st k, sub fs s d = (st, .done k) → (st.filter isWrite).length = k)
      (src dst : Path) (fs : FS) (x : Str) (e : Entry) (st : List Step) (k : Nat),
      copyOne sub src dst fs x e = (st, .done k) → (st.filter isWrite).length = k := by
    intro sub hsub src dst fs x e st k h
    cases e with
    | dir => exact hsub _ _ _ _ _ h
    | file c =>
      simp only [copyOne] at h
      split at h
      · cases h
      · simp only [Prod.mk.injEq, CopyEnd.done.injEq] at h
        obtain ⟨rfl, rfl⟩ := h
        rfl
    | _ => cases h
  have heach : ∀ (sub : FS → Path → Path → List Step × CopyEnd) (skip : Str → Bool)
      (_ : ∀ fs s d st k, sub fs s d = (st, .done k) → (st.filter isWrite).length = k)
      (src dst : Path) (l : List (Str × Entry)) (fs : FS) (st : List Step) (k : Nat),
      copyEach sub skip src dst fs l = (st, .done k) → (st.filter isWrite).length = k := by
    intro sub skip hsub src dst l
    induction l with
    | nil => intro fs st k h; cases h; rfl
    | cons y l ih =>
      intro fs st k h
      obtain ⟨x, e⟩ := y
      unfold copyEach at h
      split at h
      · exact ih _ _ _ h
      · cases h1 : copyOne sub src dst fs x e with
        | mk s r =>
          rw [h1] at h
          cases r with
          | done n =>
            dsimp only at h
            cases h2 : copyEach sub skip src dst (run fs s) l with
            | mk s' r' =>
              rw [h2] at h
              cases r' with
              | done n' =>
                simp only [Prod.mk.injEq, CopyEnd.done.injEq] at h
                obtain ⟨rfl, rfl⟩ := h
                rw [List.filter_append, List.length_append, hone sub hsub _ _ _ _ _ _ _ h1, ih _ _ _ h2]
              | _ => cases h
          | _ => cases h
  have hdir : ∀ (n : Nat) (skip : Str → Bool) (fs : FS) (src dst : Path) (st : List Step) (k : Nat),
      copyDir order skip n fs src dst = (st, .done k) → (st.filter isWrite).length = k := by
    intro n
    induction n with
    | zero => intro skip fs src dst st k h; cases h
    | succ n ih =>
      intro skip fs src dst st k h
      unfold copyDir at h
      split at h
      · cases h
      · simp only [Prod.mk.injEq] at h
        obtain ⟨rfl, h2⟩ := h
        rw [List.filter_append, hmk, List.nil_append]
        exact heach _ skip (ih _) _ _ _ _ _ _ (Prod.ext rfl h2)
  exact hdir _ _ _ _ _ _ _ h

/-- C147: it ends, if the directory to install in is apart from the source. -/
theorem C147_ends_partial (order : Listing) (ho : ListsAll order) (fs : FS) (src dst : Path) (ha : Apart src dst) (hok : Ok fs) :
    ∃ depth, (copyInstall order depth fs src dst).2 ≠ .unfinished := by
  obtain ⟨n, hn⟩ := deep fs src
  exact ⟨n + 1, dir_ends ho skipped n fs src dst ha hok.nodup hn⟩

/-- C147 is false of a directory in the source whose first name is not left out: however long it goes on, the copying is
not done, since each directory that it makes is one more to copy. -/
theorem C147_inside_false (order : Listing) (ho : ListsAll order) (depth : Nat) (fs : FS) (src : Path) (x : Str) (r : Path)
    (hx : skipped x = false) (k : Nat) : (copyInstall order depth fs src (src ++ x :: r)).2 ≠ .done k :=
  dir_endless ho skipped depth fs src x r hx k

/-- C147: that is where a build goes whose request has no install path, with the standard configuration, in the directory
of the package. -/
theorem C147_default_false (m : Machine) (r : Request) (e : Env) (hn : Component r.package.name) (hw : m.cwd ≠ [])
    (hs : m.cwd.getLast? ≠ some '/')
    (hv : r.variantIndex = none) (hi : r.installPath = none) (h : buildEnv m ⟨c!".rez_build", []⟩ r = some e) :
    e.installDir = m.cwd ++ c!"/.rez_build/" ++ r.package.name ++ c!"/install" ∧ skipped c!".rez_build" = false := by
  refine ⟨?_, by decide⟩
  unfold buildEnv freshEnv withInstallPath at h
  have hnorm : normalize m c!".rez_build" = some (m.cwd ++ c!"/.rez_build") := by
    simp [normalize, List.isPrefixOf, pjoin, hw, hs]
  rw [hnorm, hv, hi] at h
  simp only [Option.map_some, Option.bind_some, Option.some.injEq] at h
  subst h
  have h1 : r.package.name.head? ≠ some '/' := by
    intro hc
    exact hn.slash (List.mem_of_mem_head? hc)
  have h2 : r.package.name.getLast? ≠ some '/' := by
    intro hc
    exact hn.slash (List.mem_of_mem_getLast? hc)
  show pjoin (pjoin (m.cwd ++ c!"/.rez_build") r.package.name) c!"install" = _
  have e1 : pjoin (m.cwd ++ c!"/.rez_build") r.package.name = m.cwd ++ c!"/.rez_build/" ++ r.package.name := by
    unfold pjoin
    rw [if_neg h1, if_neg (by simp), if_neg (by simp)]
    simp
  rw [e1]
  unfold pjoin
  obtain ⟨l, c, hl⟩ : ∃ l c, r.package.name = l ++ [c] := ⟨_, _, (List.dropLast_append_getLast hn.filled).symm⟩
  rw [hl] at h2 ⊢
  rw [if_neg (by simp), if_neg (by simp), if_neg]
  · simp
    rw [← List.cons_append, List.getLast?_concat]
    rw [List.getLast?_concat] at h2
    exact h2

/-- A package with a script, compiled files and an old log, installed twice. -/
def yard : FS :=
  [([], .dir), ([c!"w"], .dir), ([c!"w", c!"package.py"], .file c!"name"), ([c!"w", c!"bin"], .dir),
   ([c!"w", c!"bin", c!"tool"], .file c!"run"), ([c!"w", c!"bin", c!"old.pyc"], .file c!"junk"),
   ([c!"w", c!".git"], .dir), ([c!"w", c!".git", c!"HEAD"], .file c!"ref"), ([c!"w", c!"a.log"], .file c!"log"),
   ([c!"p"], .dir), ([c!"p", c!"gone"], .file c!"stale")]

example : ∃ steps k, copyInstall id 4 yard [c!"w"] [c!"q", c!"1"] = (steps, .done k) ∧
    mget (run yard steps) [c!"q", c!"1", c!"bin", c!"tool"] = some (.file c!"run") ∧
    mget (run yard steps) [c!"q", c!"1", c!".git"] = none ∧
    mget (run yard steps) [c!"q", c!"1", c!"a.log"] = none := ⟨_, _, rfl, by decide +kernel, by decide +kernel, by decide +kernel⟩

example : Apart [c!"w"] [c!"q", c!"1"] ∧ Gone yard [c!"q", c!"1"] ∧ (mkeys yard).Nodup := by
  refine ⟨⟨by decide, by decide⟩, fun r => ?_, by decide +kernel⟩
  cases h : mget yard ([c!"q", c!"1"] ++ r) with
  | none => rfl
  | some e =>
    have hm := mget_some_mem h
    simp [yard] at hm

/-- C147: names are left out only at the top: compiled files in directories are installed. -/
theorem C147_nested_false : ∃ steps k, copyInstall id 4 yard [c!"w"] [c!"q"] = (steps, .done k) ∧
    skipped c!"old.pyc" = true ∧ mget (run yard steps) [c!"q", c!"bin", c!"old.pyc"] = some (.file c!"junk") :=
  ⟨_, _, rfl, by decide +kernel, by decide +kernel⟩

/-- C147: what an earlier version had stays installed. -/
theorem C147_stale_false : ∃ steps k, copyInstall id 4 yard [c!"w"] [c!"p"] = (steps, .done k) ∧
    mget yard [c!"w", c!"gone"] = none ∧ mget (run yard steps) [c!"p", c!"gone"] = some (.file c!"stale") :=
  ⟨_, _, rfl, by decide +kernel, by decide +kernel⟩

/-- C147: a package that is built where it is installed loses its files. -/
theorem C147_itself_false : ∃ steps k, copyInstall id 4 yard [c!"w"] [c!"w"] = (steps, .done k) ∧
    mget yard [c!"w", c!"package.py"] = some (.file c!"name") ∧
    mget (run yard steps) [c!"w", c!"package.py"] = some (.file []) ∧
    mget (run yard steps) [c!"w", c!"bin", c!"tool"] = some (.file []) :=
  ⟨_, _, rfl, by decide +kernel, by decide +kernel, by decide +kernel⟩

end Rez.Props
