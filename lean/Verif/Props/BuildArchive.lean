import Verif.Spec.BuildArchive
import Verif.Props.BuildCopy
import Verif.Props.BuildCommand
import Verif.Props.Rex
/-!
# C155: binary archives
-/
namespace Rez.Props
open Rez Rez.Files Rez.Spec.Files Rez.Build Rez.Build.Spec

namespace ArchiveLemmas
open FilesLemmas BuildCopyLemmas

theorem andThen_true {fs : FS} {a : List Step × Bool} {k : FS → List Step × Bool} {s : List Step}
    (h : andThen fs a k = (s, true)) : a.2 = true ∧ ∃ s', k (run fs a.1) = (s', true) ∧ s = a.1 ++ s' := by
  unfold andThen at h
  by_cases ha : a.2 = true
  · rw [if_pos ha] at h
    cases hk : k (run fs a.1) with
    | mk s' b =>
      rw [hk] at h
      cases h
      exact ⟨ha, s', rfl, rfl⟩
  · rw [if_neg ha] at h
    rw [h] at ha
    exact absurd rfl ha

theorem andThen_split {fs : FS} {a : List Step × Bool} {k : FS → List Step × Bool} {s : List Step}
    (h : andThen fs a k = (s, true)) : ∃ s0 s', a = (s0, true) ∧ k (run fs s0) = (s', true) ∧ s = s0 ++ s' := by
  obtain ⟨ha, s', h1, h2⟩ := andThen_true h
  exact ⟨a.1, s', Prod.ext rfl ha, h1, h2⟩

theorem andThen_all {P : Step → Prop} {fs : FS} {a : List Step × Bool} {k : FS → List Step × Bool} (ha : ∀ s ∈ a.1, P s)
    (hk : ∀ fs, ∀ s ∈ (k fs).1, P s) : ∀ s ∈ (andThen fs a k).1, P s := by
  unfold andThen
  split
  · intro s hs
    rcases List.mem_append.mp hs with hs | hs
    · exact ha s hs
    · exact hk _ s hs
  · exact ha

/-- The kind of what is at a path stays. -/
def Keeps (fs fs' : FS) : Prop :=
  (∀ q, mget fs q = some .dir → mget fs' q = some .dir) ∧
  ∀ q c, mget fs q = some (.file c) → ∃ c', mget fs' q = some (.file c')

theorem keeps_trans {a b c : FS} (h : Keeps a b) (h' : Keeps b c) : Keeps a c :=
  ⟨fun q hq => h'.1 q (h.1 q hq), fun q x hq => by
    obtain ⟨y, hy⟩ := h.2 q x hq
    exact h'.2 q y hy⟩

theorem makeAll_good {fs : FS} (hok : Ok fs) {p : Path} {s : List Step} (h : makeAll fs p = (s, true)) :
    Ok (run fs s) ∧ Keeps fs (run fs s) ∧ (∀ q, q <+: p → mget (run fs s) q = some .dir) ∧
    (∀ q, ¬ q <+: p → mget (run fs s) q = mget fs q) ∧ ∀ q e, mget fs q = some e → mget (run fs s) q = some e := by
  unfold makeAll at h
  by_cases hb : blocked fs p = true
  · rw [if_pos hb] at h; cases h
  · rw [if_neg hb] at h
    cases h
    have hs : ∀ q e, mget fs q = some e → mget (run fs (mkdirAll p)) q = some e := by
      intro q e hq
      rw [mkdirAll_get, hq]
      split <;> rfl
    exact ⟨ok_mkdirAll hok hb, ⟨fun q hq => hs q _ hq, fun q c hq => ⟨c, hs q _ hq⟩⟩, fun q hq => mkdirAll_dir hb hq,
      fun q hq => by rw [mkdirAll_get, if_neg hq], hs⟩

theorem makeAll_near (fs : FS) (p : Path) : ∀ s ∈ (makeAll fs p).1, Near p s := by
  unfold makeAll
  split
  · simp
  · intro t ht
    unfold mkdirAll at ht
    obtain ⟨q, hq, rfl⟩ := List.mem_map.1 ht
    exact Or.inr ⟨q, (List.mem_inits q p).1 hq, rfl⟩

theorem write_get (fs : FS) (p : Path) (c : Str) (q : Path) :
    mget (run fs [.create p, .write p (.file c)]) q = if q = p then some (.file c) else mget fs q := by
  simp only [run, List.foldl_cons, List.foldl_nil, Step.apply, mget_mset]
  split <;> rfl

theorem writeFile_good {fs : FS} (hok : Ok fs) {p : Path} (hne : p ≠ []) (hd : mget fs p.dropLast = some .dir) {c : Str} {s : List Step}
    (h : writeFile fs p c = (s, true)) :
    Ok (run fs s) ∧ Keeps fs (run fs s) ∧ ∀ q, mget (run fs s) q = if q = p then some (.file c) else mget fs q := by
  unfold writeFile at h
  by_cases hb : mget fs p = some .dir
  · rw [if_pos hb] at h; cases h
  · rw [if_neg hb] at h
    cases h
    obtain ⟨d, x, rfl⟩ : ∃ d x, p = d ++ [x] := ⟨p.dropLast, p.getLast hne, (List.dropLast_append_getLast hne).symm⟩
    rw [List.dropLast_concat] at hd
    refine ⟨ok_write hok hd hb, ⟨fun q hq => ?_, fun q c' hq => ?_⟩, write_get fs _ c⟩
    · rw [write_get, if_neg]
      · exact hq
      · rintro rfl; exact hb hq
    · rw [write_get]
      split
      · exact ⟨c, rfl⟩
      · exact ⟨c', hq⟩

/-- What one entry makes a directory. -/
def MakesDir (e : ArchiveEntry) (p : Path) : Prop :=
  (∃ q, e = (some q, none) ∧ p <+: q) ∨ ∃ q c, e = (some q, some c) ∧ p <+: q ∧ p ≠ q

theorem prefix_dropLast {p q : Path} (h : p <+: q.dropLast) (hq : q ≠ []) : p <+: q ∧ p ≠ q := by
  refine ⟨h.trans (List.dropLast_prefix q), ?_⟩
  rintro rfl
  have := h.length_le
  rw [List.length_dropLast] at this
  have : p.length ≠ 0 := by simpa using hq
  omega

theorem dropLast_prefix {p q : Path} (h : p <+: q) (hne : p ≠ q) : p <+: q.dropLast := by
  rcases List.eq_nil_or_concat q with rfl | ⟨d, x, rfl⟩
  · exact absurd (List.prefix_nil.mp h) hne
  · rw [List.concat_eq_append] at h hne ⊢
    rw [List.dropLast_concat]
    rcases List.prefix_concat_iff.1 h with h | h
    · exact absurd h hne
    · exact h

theorem append_prefix {d p q : Path} : d ++ p <+: d ++ q ↔ p <+: q := List.prefix_append_right_inj d

theorem unpackOne_good {fs : FS} (hok : Ok fs) {dest : Path} (hd : mget fs dest = some .dir) (e : ArchiveEntry) {s : List Step}
    (h : unpackOne dest fs e = (s, true)) :
    Ok (run fs s) ∧ Keeps fs (run fs s) ∧ (∀ p c, e = (some p, some c) → mget (run fs s) (dest ++ p) = some (.file c)) ∧
    (∀ p, MakesDir e p → mget (run fs s) (dest ++ p) = some .dir) ∧
    ∀ p, (∀ c, e ≠ (some p, some c)) → ¬ MakesDir e p → mget (run fs s) (dest ++ p) = mget fs (dest ++ p) := by
  obtain ⟨p, c⟩ := e
  cases p with
  | none =>
    cases h
    refine ⟨hok, ⟨fun q h => h, fun q c h => ⟨c, h⟩⟩, ?_, ?_, fun _ _ _ => rfl⟩
    · rintro p c ⟨⟩
    · rintro p (⟨q, h, _⟩ | ⟨q, c, h, _⟩) <;> cases h
  | some p =>
    cases c with
    | none =>
      obtain ⟨h1, h2, h3, h4, h5⟩ := makeAll_good hok h
      refine ⟨h1, h2, ?_, ?_, ?_⟩
      · rintro p c ⟨⟩
      · rintro q (⟨r, hr, hq⟩ | ⟨r, c, hr, _⟩)
        · cases hr
          exact h3 _ (append_prefix.mpr hq)
        · cases hr
      · intro q _ hq
        refine h4 _ fun hp => hq (Or.inl ⟨p, rfl, append_prefix.mp hp⟩)
    | some c =>
      have h : andThen fs (makeAll fs (dest ++ p).dropLast) (fun fs => writeFile fs (dest ++ p) c) = (s, true) := h
      obtain ⟨ha, s', hs', rfl⟩ := andThen_true h
      have hm : makeAll fs (dest ++ p).dropLast = ((makeAll fs (dest ++ p).dropLast).1, true) := Prod.ext rfl ha
      obtain ⟨h1, h2, h3, h4, h5⟩ := makeAll_good hok hm
      rw [run_append]
      have hp : p ≠ [] := by
        rintro rfl
        unfold writeFile at hs'
        have hk := h2.1 dest hd
        rw [List.append_nil] at hs' hk
        rw [hk, if_pos rfl] at hs'
        cases hs'
      have hne : dest ++ p ≠ [] := by simp [hp]
      obtain ⟨g1, g2, g3⟩ := writeFile_good h1 hne (h3 _ List.prefix_rfl) hs'
      refine ⟨g1, keeps_trans h2 g2, ?_, ?_, ?_⟩
      · rintro q c' ⟨⟩
        rw [g3, if_pos rfl]
      · rintro q (⟨r, hr, hq⟩ | ⟨r, c', hr, hq, hqn⟩)
        · cases hr
        · cases hr
          rw [g3, if_neg (by simpa using hqn)]
          exact h3 _ (dropLast_prefix (append_prefix.mpr hq) (by simpa using hqn))
      · intro q hf hq
        rw [g3, if_neg (by intro h; exact hf c (by rw [List.append_cancel_left h]))]
        refine h4 _ fun hpre => ?_
        obtain ⟨a1, a2⟩ := prefix_dropLast hpre hne
        exact hq (Or.inr ⟨p, c, rfl, append_prefix.mp a1, by rintro rfl; exact a2 rfl⟩)

theorem isFile_cons {e : ArchiveEntry} {l : List ArchiveEntry} {p : Path} {c : Str} :
    IsFile (e :: l) p c ↔ IsFile l p c ∨ (e = (some p, some c) ∧ ∀ c', (some p, some c') ∉ l) := by
  constructor
  · rintro ⟨pre, post, h, hn⟩
    cases pre with
    | nil => cases h; exact Or.inr ⟨rfl, hn⟩
    | cons a pre => cases h; exact Or.inl ⟨pre, post, rfl, hn⟩
  · rintro (⟨pre, post, rfl, hn⟩ | ⟨rfl, hn⟩)
    · exact ⟨e :: pre, post, rfl, hn⟩
    · exact ⟨[], l, rfl, hn⟩

theorem isDir_cons {e : ArchiveEntry} {l : List ArchiveEntry} {p : Path} : IsDir (e :: l) p ↔ MakesDir e p ∨ IsDir l p := by
  unfold IsDir MakesDir
  simp only [List.mem_cons]
  constructor
  · rintro (⟨q, h | h, hp⟩ | ⟨q, c, h | h, hp⟩)
    · exact Or.inl (Or.inl ⟨q, h.symm, hp⟩)
    · exact Or.inr (Or.inl ⟨q, h, hp⟩)
    · exact Or.inl (Or.inr ⟨q, c, h.symm, hp⟩)
    · exact Or.inr (Or.inr ⟨q, c, h, hp⟩)
  · rintro ((⟨q, h, hp⟩ | ⟨q, c, h, hp⟩) | (⟨q, h, hp⟩ | ⟨q, c, h, hp⟩))
    · exact Or.inl ⟨q, Or.inl h.symm, hp⟩
    · exact Or.inr ⟨q, c, Or.inl h.symm, hp⟩
    · exact Or.inl ⟨q, Or.inr h, hp⟩
    · exact Or.inr ⟨q, c, Or.inr h, hp⟩

theorem last_file (l : List ArchiveEntry) (p : Path) : ∀ c, (some p, some c) ∈ l → ∃ c', IsFile l p c' := by
  induction l with
  | nil => intro c h; cases h
  | cons e l ih =>
    intro c h
    by_cases hl : ∃ c', (some p, some c') ∈ l
    · obtain ⟨c', hc'⟩ := hl
      obtain ⟨d, hd⟩ := ih c' hc'
      exact ⟨d, isFile_cons.mpr (Or.inl hd)⟩
    · rcases List.mem_cons.mp h with h | h
      · exact ⟨c, isFile_cons.mpr (Or.inr ⟨h.symm, fun c' hc => hl ⟨c', hc⟩⟩)⟩
      · exact absurd ⟨c, h⟩ hl

theorem unpack_good {dest : Path} (l : List ArchiveEntry) : ∀ {fs : FS}, Ok fs → mget fs dest = some .dir → ∀ {s : List Step},
    unpackEach dest fs l = (s, true) →
    Ok (run fs s) ∧ Keeps fs (run fs s) ∧ (∀ p c, IsFile l p c → mget (run fs s) (dest ++ p) = some (.file c)) ∧
    (∀ p, IsDir l p → mget (run fs s) (dest ++ p) = some .dir) ∧
    ∀ p, ¬ Holds l p → mget (run fs s) (dest ++ p) = mget fs (dest ++ p) := by
  induction l with
  | nil =>
    intro fs hok hd s h
    cases h
    refine ⟨hok, ⟨fun q h => h, fun q c h => ⟨c, h⟩⟩, ?_, ?_, fun _ _ => rfl⟩
    · rintro p c ⟨pre, post, h, _⟩
      simp at h
    · rintro p (⟨q, h, _⟩ | ⟨q, c, h, _⟩) <;> cases h
  | cons e l ih =>
    intro fs hok hd s h
    obtain ⟨ha, s', hs', rfl⟩ := andThen_true h
    obtain ⟨h1, h2, h3, h4, h5⟩ := unpackOne_good hok hd e (Prod.ext rfl ha)
    obtain ⟨g1, g2, g3, g4, g5⟩ := ih h1 (h2.1 _ hd) hs'
    rw [run_append]
    refine ⟨g1, keeps_trans h2 g2, ?_, ?_, ?_⟩
    · intro p c hf
      rcases isFile_cons.mp hf with hf | ⟨rfl, hn⟩
      · exact g3 p c hf
      · have hx := h3 p c rfl
        rw [g5, hx]
        rintro (⟨c', hc'⟩ | hdir)
        · obtain ⟨pre, post, rfl, _⟩ := hc'
          exact hn c' (by simp)
        · obtain ⟨c', hc'⟩ := g2.2 _ _ hx
          rw [g4 p hdir] at hc'
          cases hc'
    · intro p hdir
      rcases isDir_cons.mp hdir with hdir | hdir
      · exact g2.1 _ (h4 p hdir)
      · exact g4 p hdir
    · intro p hno
      rw [g5, h5]
      · rintro c rfl
        obtain ⟨c', hc'⟩ := last_file _ p c List.mem_cons_self
        exact hno (Or.inl ⟨c', hc'⟩)
      · exact fun hm => hno (Or.inr (isDir_cons.mpr (Or.inl hm)))
      · rintro (⟨c, hc⟩ | hdir)
        · exact hno (Or.inl ⟨c, isFile_cons.mpr (Or.inl hc)⟩)
        · exact hno (Or.inr (isDir_cons.mpr (Or.inr hdir)))

theorem unpack_near {dest : Path} (l : List ArchiveEntry) : ∀ fs, ∀ s ∈ (unpackEach dest fs l).1, Near dest s := by
  induction l with
  | nil => intro fs s h; cases h
  | cons e l ih =>
    intro fs
    refine andThen_all ?_ ih
    obtain ⟨p, c⟩ := e
    cases p with
    | none => intro s h; cases h
    | some p =>
      cases c with
      | none => exact fun s hs => near_mono (prefix_self_append _) (makeAll_near _ _ s hs)
      | some c =>
        refine andThen_all ?_ ?_
        · intro s hs
          by_cases hp : p = []
          · subst hp
            have h1 := makeAll_near _ _ s hs
            rw [List.append_nil] at h1
            rcases h1 with h1 | ⟨q, hq, rfl⟩
            · unfold makeAll at hs
              split at hs
              · cases hs
              · unfold mkdirAll at hs
                rw [List.append_nil] at hs
                obtain ⟨q, hq, rfl⟩ := List.mem_map.1 hs
                exact Or.inr ⟨q, ((List.mem_inits q _).1 hq).trans (List.dropLast_prefix _), rfl⟩
            · exact Or.inr ⟨q, hq.trans (List.dropLast_prefix _), rfl⟩
          · have e : (dest ++ p).dropLast = dest ++ p.dropLast := List.dropLast_append_of_ne_nil hp
            rw [e] at hs
            exact near_mono (prefix_self_append _) (makeAll_near _ _ s hs)
        · intro fs s hs
          unfold writeFile at hs
          split at hs
          · cases hs
          · simp only [List.mem_cons, List.not_mem_nil, or_false] at hs
            rcases hs with rfl | rfl <;> exact Or.inl (prefix_self_append _)

/-! Copying -/

theorem replace_near {order : Listing} {rm : Order} (hr : Lists rm) (n : Nat) (fs : FS) (src dst : Path) :
    ∀ t ∈ (replaceDir order rm n fs src dst).1, Near dst t := by
  unfold replaceDir
  split
  · exact dir_near _ _ _ _ _ _
  · intro t ht
    rcases List.mem_append.mp ht with ht | ht
    · exact Or.inl (removeTree_path hr _ _ t ht)
    · exact dir_near _ _ _ _ _ _ t ht
  · intro t ht; cases ht

theorem contents_near {order : Listing} {rm : Order} (hr : Lists rm) (n : Nat) (fs : FS) (src dst : Path) :
    ∀ t ∈ (copyContents order rm n fs src dst).1, Near dst t := by
  unfold copyContents
  split
  · intro t ht; cases ht
  · intro t ht
    rcases List.mem_append.mp ht with ht | ht
    · unfold mkdirAll at ht
      obtain ⟨q, hq, rfl⟩ := List.mem_map.1 ht
      exact Or.inr ⟨q, (List.mem_inits q dst).1 hq, rfl⟩
    · exact each_near (fun fs s d => replace_near hr n fs s d) _ _ _ _ _ t ht

theorem ok_removeTree {rm : Order} (hr : Lists rm) {fs : FS} (hok : Ok fs) (p : Path) : Ok (run fs (removeTree rm fs p)) := by
  refine ⟨nodup_run hok.nodup _, fun a b hb hne ha => ?_⟩
  rw [removeTree_get hr] at ha ⊢
  by_cases hp : p <+: a
  · rw [if_pos hp] at ha; cases ha
  · rw [if_neg hp] at ha
    rw [if_neg fun h => hp (h.trans hb)]
    exact hok.parents a b hb hne ha

/-- A directory that takes the place of another is the same as its source. -/
theorem replace_good {order : Listing} (ho : ListsAll order) {rm : Order} (hr : Lists rm) (n : Nat) (fs : FS) (src dst : Path)
    (st : List Step) (k : Nat) (ha : Apart src dst) (hok : Ok fs) (hs : mget fs src = some .dir)
    (h : replaceDir order rm n fs src dst = (st, .done k)) :
    Ok (run fs st) ∧ ∀ r, mget (run fs st) (dst ++ r) = mget fs (src ++ r) := by
  have fin : ∀ fs' st', Ok fs' → (∀ r, mget fs' (src ++ r) = mget fs (src ++ r)) → (∀ x r, mget fs' (dst ++ x :: r) = none) →
      copyDir order (fun _ => false) n fs' src dst = (st', .done k) →
      Ok (run fs' st') ∧ ∀ r, mget (run fs' st') (dst ++ r) = mget fs (src ++ r) := by
    intro fs' st' hok' hsrc hfree hc
    have hg := dir_good ho (fun _ => false) n fs' src dst st' k ha hok' hc
    refine ⟨hg.ok, fun r => ?_⟩
    cases r with
    | nil => rw [List.append_nil, List.append_nil, hg.dir, hs]
    | cons x r =>
      rw [hg.get, hsrc, hfree]
      cases mget fs (src ++ x :: r) <;> simp
  unfold replaceDir at h
  split at h
  · rename_i hd
    refine fin fs st hok (fun _ => rfl) (fun x r => ?_) h
    cases hm : mget fs (dst ++ x :: r) with
    | none => rfl
    | some e =>
      have := hok.parents (dst ++ x :: r) dst (prefix_self_append _) (by simp) (by rw [hm]; rfl)
      rw [hd] at this
      cases this
  · simp only [Prod.mk.injEq] at h
    obtain ⟨rfl, h2⟩ := h
    rw [run_append]
    refine fin _ _ (ok_removeTree hr hok dst) (fun r => ?_) (fun x r => ?_) (Prod.ext rfl h2)
    · rw [removeTree_get hr, if_neg]
      intro hc
      rcases List.prefix_or_prefix_of_prefix hc (prefix_self_append r) with h1 | h1
      · exact ha.2 h1
      · exact ha.1 h1
    · rw [removeTree_get hr, if_pos (prefix_self_append _)]
  · cases h

theorem each_exact {sub : FS → Path → Path → List Step × CopyEnd} {src dst : Path} (ha : Apart src dst)
    (hsub : ∀ fs s d st k, Apart s d → Ok fs → mget fs s = some .dir → sub fs s d = (st, .done k) →
      Ok (run fs st) ∧ ∀ r, mget (run fs st) (d ++ r) = mget fs (s ++ r))
    (hnear : ∀ fs s d, ∀ t ∈ (sub fs s d).1, Near d t)
    (l : List (Str × Entry)) (fs : FS) (hok : Ok fs) (hd : mget fs dst = some .dir) (hl : (l.map Prod.fst).Nodup)
    (hm : ∀ x e, (x, e) ∈ l → mget fs (src ++ [x]) = some e) (st : List Step) (k : Nat)
    (h : copyEach sub (fun _ => false) src dst fs l = (st, .done k)) :
    Ok (run fs st) ∧ mget (run fs st) dst = some .dir ∧ ∀ x r, mget (run fs st) (dst ++ x :: r) =
      if x ∈ l.map Prod.fst then mget fs (src ++ x :: r) else mget fs (dst ++ x :: r) := by
  induction l generalizing fs st k with
  | nil =>
    simp only [copyEach, Prod.mk.injEq] at h
    obtain ⟨rfl, _⟩ := h
    exact ⟨hok, hd, fun x r => by simp [run]⟩
  | cons a l ih =>
    obtain ⟨x, e⟩ := a
    obtain ⟨hxl, hl'⟩ := List.nodup_cons.1 hl
    have hm' : ∀ y e', (y, e') ∈ l → mget fs (src ++ [y]) = some e' := fun y e' hy => hm y e' (List.mem_cons_of_mem _ hy)
    have hx := hm x e List.mem_cons_self
    unfold copyEach at h
    rw [if_neg (by simp)] at h
    have hone : ∀ s n, copyOne sub src dst fs x e = (s, .done n) →
        Ok (run fs s) ∧ (∀ t ∈ s, Near (dst ++ [x]) t) ∧ mget (run fs s) dst = some .dir ∧
        ∀ r, mget (run fs s) (dst ++ x :: r) = mget fs (src ++ x :: r) := by
      intro s n hc
      cases e with
      | dir =>
        have hn := hnear fs (src ++ [x]) (dst ++ [x])
        simp only [copyOne] at hc
        rw [hc] at hn
        obtain ⟨g1, g2⟩ := hsub fs _ _ s n (apart_push ha x x) hok hx hc
        have gx : mget (run fs s) (dst ++ [x]) = some .dir := by
          have := g2 []
          simp only [List.append_nil] at this
          rw [this, hx]
        refine ⟨g1, hn, ?_, fun r => ?_⟩
        · exact g1.parents (dst ++ [x]) dst (prefix_self_append _) (by simp) (by rw [gx]; rfl)
        · simpa using g2 r
      | file c =>
        simp only [copyOne] at hc
        split at hc
        · cases hc
        · rename_i hnd
          have hne : src ≠ dst := fun hc => ha.1 (hc ▸ List.prefix_rfl)
          rw [if_neg hne] at hc
          simp only [Prod.mk.injEq] at hc
          obtain ⟨rfl, _⟩ := hc
          refine ⟨ok_write hok hd hnd, ?_, ?_, fun r => ?_⟩
          · intro t ht
            simp only [List.mem_cons, List.not_mem_nil, or_false] at ht
            rcases ht with rfl | rfl <;> exact Or.inl List.prefix_rfl
          · rw [write_get, if_neg (by intro hc; have := congrArg List.length hc; simp at this)]; exact hd
          · cases r with
            | nil => rw [write_get, if_pos rfl, hx]
            | cons y r =>
              have none_below : ∀ p : Path, mget fs (p ++ [x]) ≠ some .dir → mget fs (p ++ x :: y :: r) = none := by
                intro p hp
                cases hq : mget fs (p ++ x :: y :: r) with
                | none => rfl
                | some e =>
                  exact absurd (hok.parents (p ++ x :: y :: r) (p ++ [x]) ⟨y :: r, by simp⟩ (by simp) (by rw [hq]; rfl)) hp
              rw [none_below src (by rw [hx]; simp), write_get, if_neg (by simp), none_below dst hnd]
      | link c => simp [copyOne] at hc
      | special => simp [copyOne] at hc
    rcases hc : copyOne sub src dst fs x e with ⟨s, r⟩
    rw [hc] at h
    cases r with
    | failed => simp at h
    | unfinished => simp at h
    | done n =>
      simp only at h
      obtain ⟨h1, h2, h3, h4⟩ := hone s n hc
      have hsrc : ∀ r, mget (run fs s) (src ++ r) = mget fs (src ++ r) :=
        fun r => near_source ha (fun t ht => near_mono (prefix_self_append _) (h2 t ht)) fs r
      rcases hc2 : copyEach sub (fun _ => false) src dst (run fs s) l with ⟨s', r'⟩
      rw [hc2] at h
      cases r' with
      | failed => simp at h
      | unfinished => simp at h
      | done n' =>
        simp only [Prod.mk.injEq] at h
        obtain ⟨rfl, _⟩ := h
        obtain ⟨h5, h0, h6⟩ := ih (run fs s) h1 h3 hl' (fun y e' hy => by rw [hsrc]; exact hm' y e' hy) s' n' hc2
        rw [FilesLemmas.run_append]
        refine ⟨h5, h0, fun y r => ?_⟩
        rw [h6, hsrc]
        by_cases hy : y = x
        · subst hy
          rw [if_neg hxl, h4]
          simp
        · simp only [List.map_cons, List.mem_cons, hy, false_or]
          rw [near_other h2 fs (Ne.symm hy) r]

theorem contents_good {order : Listing} (ho : ListsAll order) {rm : Order} (hr : Lists rm) (n : Nat) (fs : FS) (src dst : Path)
    (st : List Step) (k : Nat) (ha : Apart src dst) (hok : Ok fs) (h : copyContents order rm n fs src dst = (st, .done k)) :
    Ok (run fs st) ∧ mget (run fs st) dst = some .dir ∧ ∀ x r, mget (run fs st) (dst ++ x :: r) =
      if (mget fs (src ++ [x])).isSome then mget fs (src ++ x :: r) else mget fs (dst ++ x :: r) := by
  unfold copyContents at h
  split at h
  · simp at h
  · rename_i hb
    simp only [Prod.mk.injEq] at h
    obtain ⟨rfl, h2⟩ := h
    have hmk : ∀ t ∈ mkdirAll dst, Near dst t := fun t ht => by
      unfold mkdirAll at ht
      obtain ⟨q, hq, rfl⟩ := List.mem_map.1 ht
      exact Or.inr ⟨q, (List.mem_inits q dst).1 hq, rfl⟩
    have hok1 := ok_mkdirAll hok hb
    have hsrc : ∀ r, mget (run fs (mkdirAll dst)) (src ++ r) = mget fs (src ++ r) := fun r => near_source ha hmk fs r
    have hdst : ∀ x r, mget (run fs (mkdirAll dst)) (dst ++ x :: r) = mget fs (dst ++ x :: r) := fun x r => by
      rw [mkdirAll_get, if_neg]
      rintro ⟨t, ht⟩
      have := congrArg List.length ht
      simp at this
    have hmem : ∀ x e, (x, e) ∈ order (children (run fs (mkdirAll dst)) src) →
        mget (run fs (mkdirAll dst)) (src ++ [x]) = some e :=
      fun x e hx => mget_of_mem hok1.nodup (mem_children.1 ((ho _).mem_iff.1 hx))
    have hnd : ((order (children (run fs (mkdirAll dst)) src)).map Prod.fst).Nodup :=
      (((ho _).map Prod.fst).nodup_iff).2 (children_nodup hok1.nodup src)
    obtain ⟨h3, h3', h4⟩ := each_exact ha (fun fs' s d st' k' h1 h2 h3 h4 => replace_good ho hr n fs' s d st' k' h1 h2 h3 h4)
      (fun fs' s d => replace_near hr n fs' s d) _ _ hok1 (mkdirAll_dir hb List.prefix_rfl) hnd hmem _ k (Prod.ext rfl h2)
    rw [FilesLemmas.run_append]
    refine ⟨h3, h3', fun x r => ?_⟩
    rw [h4, hsrc, hdst]
    have hx : x ∈ (order (children (run fs (mkdirAll dst)) src)).map Prod.fst ↔ (mget fs (src ++ [x])).isSome = true := by
      rw [← hsrc]
      constructor
      · intro hx
        obtain ⟨⟨y, e⟩, he, rfl⟩ := List.mem_map.1 hx
        rw [hmem y e he]; rfl
      · intro hx
        obtain ⟨e, he⟩ := Option.isSome_iff_exists.1 hx
        exact List.mem_map.2 ⟨(x, e), (ho _).mem_iff.2 (mget_mem_children he), rfl⟩
    by_cases hs : (mget fs (src ++ [x])).isSome = true
    · rw [if_pos (hx.mpr hs), if_pos hs]
    · rw [if_neg (fun h => hs (hx.mp h)), if_neg hs]

/-! The whole -/

theorem near_both {a b : Path} {steps : List Step} (h : ∀ s ∈ steps, Near a s ∨ Near b s) (fs : FS) :
    WithinBoth fs a b (run fs steps) := by
  induction steps generalizing fs with
  | nil => intro q _ _; exact Or.inl rfl
  | cons s steps ih =>
    intro q hq hq'
    have h1 := ih (fun t ht => h t (List.mem_cons_of_mem _ ht)) (s.apply fs) q hq hq'
    have h2 : mget (run fs [s]) q = mget fs q ∨
        ((q <+: a ∨ q <+: b) ∧ mget fs q = none ∧ mget (run fs [s]) q = some .dir) := by
      rcases h s List.mem_cons_self with hs | hs
      · rcases run_near (steps := [s]) (by simpa using hs) fs q hq with h | ⟨h, h'⟩
        · exact Or.inl h
        · exact Or.inr ⟨Or.inl h, h'⟩
      · rcases run_near (steps := [s]) (by simpa using hs) fs q hq' with h | ⟨h, h'⟩
        · exact Or.inl h
        · exact Or.inr ⟨Or.inr h, h'⟩
    show mget (run (s.apply fs) steps) q = mget fs q ∨ _ ∧ _ ∧ mget (run (s.apply fs) steps) q = _
    have e : run fs [s] = s.apply fs := rfl
    rw [e] at h2
    rcases h2 with h2 | ⟨h2, h3, h4⟩
    · rcases h1 with h1 | ⟨h5, h6, h7⟩
      · left; rw [h1, h2]
      · right; exact ⟨h5, h2 ▸ h6, h7⟩
    · rcases h1 with h1 | ⟨h5, h6, h7⟩
      · right; exact ⟨h2, h3, h1.trans h4⟩
      · rw [h4] at h6; cases h6

theorem suffix_iff (a b : Str) : a.isSuffixOf b = true ↔ a <:+ b := List.isSuffixOf_iff_suffix

theorem reads_iff (t : ArchiveTools) (n c : Str) (l : List ArchiveEntry) (h : readArchive t n c = some l) : Reads t n c l := by
  unfold readArchive at h
  split at h
  · rename_i hz
    exact Or.inl ⟨(suffix_iff _ _).mp hz, h⟩
  · split at h
    · rename_i hz
      rw [Bool.or_eq_true, suffix_iff, suffix_iff] at hz
      exact Or.inr ⟨hz, h⟩
    · cases h

theorem reads_none (t : ArchiveTools) (n c : Str) (h : ∀ l, ¬ Reads t n c l) : readArchive t n c = none := by
  cases hr : readArchive t n c with
  | none => rfl
  | some l => exact absurd (reads_iff t n c l hr) (h l)

theorem urlName_cases (u : Str) : ∃ n, (u = n ∨ ∃ a, u = a ++ '/' :: n) ∧ '/' ∉ n ∧
    urlName u = if n = [] then c!"artifact.bin" else n := by
  have hlast : ∀ u : Str, ∃ n, (u = n ∨ ∃ a, u = a ++ '/' :: n) ∧ '/' ∉ n ∧ (splitChar '/' u).getLast? = some n := by
    intro u
    by_cases hm : '/' ∈ u
    · have : ∀ u : Str, '/' ∈ u → ∃ a n, u = a ++ '/' :: n ∧ '/' ∉ n := by
        intro u
        induction u with
        | nil => intro h; cases h
        | cons c u ih =>
          intro h
          by_cases hu : '/' ∈ u
          · obtain ⟨a, n, rfl, hn⟩ := ih hu
            exact ⟨c :: a, n, rfl, hn⟩
          · rcases List.mem_cons.mp h with rfl | h
            · exact ⟨[], u, rfl, hu⟩
            · exact absurd h hu
      obtain ⟨a, n, rfl, hn⟩ := this u hm
      refine ⟨n, Or.inr ⟨a, rfl⟩, hn, ?_⟩
      rw [RexLemmas.splitChar_two, splitChar_noSep hn]
      simp
    · exact ⟨u, Or.inl rfl, hm, by rw [splitChar_noSep hm]; rfl⟩
  obtain ⟨n, h1, h2, h3⟩ := hlast u
  refine ⟨n, h1, h2, ?_⟩
  unfold urlName
  rw [h3]
  cases n <;> rfl

/-- Where a download goes. -/
theorem join_url (work : Path) (u : Str) :
    (Component (urlName u) ∧ join work (urlName u) = work ++ [urlName u]) ∨ join work (urlName u) = work ∨
    join work (urlName u) = work.dropLast := by
  obtain ⟨n, _, hs, hu⟩ := urlName_cases u
  have h : urlName u ≠ [] ∧ '/' ∉ urlName u := by
    rw [hu]
    split
    · decide
    · exact ⟨by assumption, hs⟩
  by_cases h1 : urlName u = c!"."
  · right; left
    rw [h1]; rfl
  · by_cases h2 : urlName u = c!".."
    · right; right
      rw [h2]; rfl
    · exact Or.inl ⟨⟨h.1, h.2, h1, h2⟩, join_component _ ⟨h.1, h.2, h1, h2⟩⟩

theorem obtain_good {t : ArchiveTools} {v : ArchiveVars} {cwd work : Path} {fs : FS} (hok : Ok fs) (hw : mget fs work = some .dir)
    {s : List Step} {p : Path} {c : Str} (h : archiveFile t v cwd work fs = (s, some (p, c))) :
    Ok (run fs s) ∧ Keeps fs (run fs s) ∧ ∃ n, p.getLast?.getD [] = n ∧ (n ≠ c!"artifact.bin" → n ≠ [] → Obtained t v cwd fs n c) ∧
    (s = [] ∨ (mget fs (work ++ [n]) ≠ some .dir ∧ ∀ q, mget (run fs s) q = if q = work ++ [n] then some (.file c) else mget fs q)) := by
  unfold archiveFile at h
  split at h
  · rename_i a ha
    split at h
    · rename_i c' hc
      cases h
      refine ⟨hok, ⟨fun q h => h, fun q c h => ⟨c, h⟩⟩, _, rfl, fun _ hne => ?_, Or.inl rfl⟩
      refine .file a _ _ ha ?_ hc
      cases hl : (join cwd a).getLast? with
      | none => rw [hl] at hne; exact absurd rfl hne
      | some n => rfl
    · cases h
  · rename_i ha
    split at h
    · cases h
    · rename_i u hu
      split at h
      · cases h
      · rename_i c' hc
        split at h
        · cases h
        · rename_i hnd
          cases h
          rcases join_url work u with ⟨hcomp, hj⟩ | hj | hj
          · rw [hj] at hnd ⊢
            have hg := writeFile_good hok (p := work ++ [urlName u]) (by simp) (by rw [List.dropLast_concat]; exact hw) (c := c)
              (by unfold writeFile; rw [if_neg hnd])
            refine ⟨hg.1, hg.2.1, urlName u, by simp, fun hn _ => ?_, Or.inr ⟨hnd, hg.2.2⟩⟩
            obtain ⟨n, h1, h2, h3⟩ := urlName_cases u
            by_cases h0 : n = []
            · rw [if_pos h0] at h3; exact absurd h3 hn
            · rw [if_neg h0] at h3
              rw [h3]
              exact .url u n c ha hu h1 h2 hc
          · rw [hj] at hnd; exact absurd hw hnd
          · rw [hj] at hnd
            refine absurd ?_ hnd
            by_cases h0 : work = []
            · rw [h0] at hw ⊢; exact hw
            · refine hok.parents work _ (List.dropLast_prefix _) (fun he => ?_) (by rw [hw]; rfl)
              have := congrArg List.length he
              rw [List.length_dropLast] at this
              have : work.length ≠ 0 := by simpa using h0
              omega

theorem mkdirAll_near (p : Path) : ∀ s ∈ mkdirAll p, ∃ q, q <+: p ∧ s = .mkdir q := by
  intro t ht
  unfold mkdirAll at ht
  obtain ⟨q, hq, rfl⟩ := List.mem_map.1 ht
  exact ⟨q, (List.mem_inits q p).1 hq, rfl⟩

theorem makeAll_steps (fs : FS) (p : Path) : ∀ s ∈ (makeAll fs p).1, ∃ q, q <+: p ∧ s = .mkdir q := by
  unfold makeAll
  split
  · simp
  · exact mkdirAll_near p

theorem download_near (t : ArchiveTools) (v : ArchiveVars) (cwd temp : Path) (x : Str) (fs : FS) :
    ∀ s ∈ (archiveFile t v cwd (temp ++ [x]) fs).1, Near temp s := by
  unfold archiveFile
  have hn : ∀ u, temp <+: join (temp ++ [x]) (urlName u) := by
    intro u
    rcases join_url (temp ++ [x]) u with ⟨_, h⟩ | h | h
    · rw [h, List.append_assoc]; exact prefix_self_append _
    · rw [h]; exact prefix_self_append _
    · rw [h, List.dropLast_concat]
  split
  · split
    · intro s h; cases h
    · intro s h; cases h
  · split
    · intro s h; cases h
    · split
      · intro s h; cases h
      · split
        · intro s h; cases h
        · rename_i u _ _ _ _ _
          intro s hs
          simp only [List.mem_cons, List.not_mem_nil, or_false] at hs
          rcases hs with rfl | rfl <;> exact Or.inl (hn u)

/-- The files that are there before a run of `create_dir_all`. -/
theorem makeAll_file {fs : FS} {p q : Path} {c : Str} (h : mget (run fs (makeAll fs p).1) q = some (.file c)) :
    mget fs q = some (.file c) := by
  unfold makeAll at h
  split at h
  · exact h
  · rw [mkdirAll_get] at h
    split at h
    · cases hm : mget fs q with
      | none => rw [hm] at h; cases h
      | some e => rw [hm] at h; exact h
    · exact h

theorem obtained_back {t : ArchiveTools} {v : ArchiveVars} {cwd p : Path} {fs : FS} {n c : Str}
    (h : Obtained t v cwd (run fs (makeAll fs p).1) n c) : Obtained t v cwd fs n c := by
  cases h with
  | file a n c h hn hc => exact .file a n c h hn (makeAll_file hc)
  | url u n c h hu hn hs hc => exact .url u n c h hu hn hs hc

/-- What happened in a run that succeeded. -/
theorem install_true {order : Listing} {rm : Order} {n : Nat} {t : ArchiveTools} {v : ArchiveVars} {cwd temp install : Path} {fs : FS}
    (hok : Ok fs) {st : List Step} (h : installArchive order rm n t v cwd temp install fs = (st, true)) :
    ∃ s1 s2 s3 name c entries k, st = s1 ++ (s2 ++ s3) ∧ Ok (run fs s1) ∧ mget (run fs s1) (extractDir temp) = some .dir ∧
      (Apart temp install → ∀ x r, mget (run fs s1) (extractDir temp ++ x :: r) = mget fs (extractDir temp ++ x :: r)) ∧
      (∀ s ∈ s1, Near temp s ∨ ∃ q, q <+: install ∧ s = .mkdir q) ∧
      Obtained t v cwd fs name c ∧ (∀ d, v.sha256 = some d → d = t.hash c) ∧ Reads t name c entries ∧
      unpackEach (extractDir temp) (run fs s1) entries = (s2, true) ∧
      mget (run fs (s1 ++ s2)) (payloadDir v (extractDir temp)) = some .dir ∧
      copyContents order rm n (run fs (s1 ++ s2)) (payloadDir v (extractDir temp)) install = (s3, .done k) := by
  unfold installArchive at h
  dsimp only at h
  have ex : temp ++ [c!"binary_archive"] ++ [c!"extract"] = extractDir temp := by unfold extractDir; simp
  rw [ex] at h
  have hwx : temp ++ [c!"binary_archive"] <+: extractDir temp := ex ▸ prefix_self_append _
  obtain ⟨t1, s1', a1, h1, rfl⟩ := andThen_split h
  clear h
  obtain ⟨t2, s2', a2, h2, rfl⟩ := andThen_split h1
  clear h1
  obtain ⟨t3, s3', a3, h, rfl⟩ := andThen_split h2
  clear h2
  obtain ⟨m1, m1', _, _, _⟩ := makeAll_good hok a1
  obtain ⟨m2, m2', x2, _, _⟩ := makeAll_good m1 a2
  obtain ⟨m3, m3', _, _, _⟩ := makeAll_good m2 a3
  have w1 := makeAll_steps fs (temp ++ [c!"binary_archive"])
  have b1 := fun n c h => @obtained_back t v cwd (temp ++ [c!"binary_archive"]) fs n c h
  rw [a1] at w1 b1
  have w2 := makeAll_steps (run fs t1) (extractDir temp)
  have b2 := fun n c h => @obtained_back t v cwd (extractDir temp) (run fs t1) n c h
  rw [a2] at w2 b2
  have w3 := makeAll_steps (run (run fs t1) t2) install
  have b3 := fun n c h => @obtained_back t v cwd install (run (run fs t1) t2) n c h
  rw [a3] at w3 b3
  dsimp only at w1 w2 w3 b1 b2 b3
  have hr : run fs (t1 ++ (t2 ++ t3)) = run (run (run fs t1) t2) t3 := by rw [run_append, run_append]
  rw [← hr] at m3 m3' b3 h
  have hx4 : mget (run fs (t1 ++ (t2 ++ t3))) (extractDir temp) = some .dir := by
    exact m3'.1 _ (x2 _ List.prefix_rfl)
  have hw4 : mget (run fs (t1 ++ (t2 ++ t3))) (temp ++ [c!"binary_archive"]) = some .dir := by
    exact m3'.1 _ (x2 _ hwx)
  have w : ∀ s ∈ t1 ++ (t2 ++ t3), Near temp s ∨ ∃ q, q <+: install ∧ s = .mkdir q := by
    intro s hs
    rcases List.mem_append.mp hs with hs | hs
    · exact Or.inl (near_mono (prefix_self_append _) (Or.inr (w1 s hs)))
    · rcases List.mem_append.mp hs with hs | hs
      · exact Or.inl (near_mono (prefix_self_append _) (Or.inr (w2 s hs)))
      · exact Or.inr (w3 s hs)
  have g : Apart temp install → ∀ x r, mget (run fs (t1 ++ (t2 ++ t3))) (extractDir temp ++ x :: r) =
      mget fs (extractDir temp ++ x :: r) := by
    intro ha x r
    have hn : ∀ s ∈ t1 ++ (t2 ++ t3), FilesLemmas.path s ≠ extractDir temp ++ x :: r := by
      intro s hs hc
      have hlen : ∀ q, q <+: extractDir temp → q ≠ extractDir temp ++ x :: r := by
        intro q hq hc
        have := hq.length_le
        rw [hc, List.length_append, List.length_cons] at this
        omega
      rcases List.mem_append.mp hs with hs | hs
      · obtain ⟨q, hq, rfl⟩ := w1 s hs
        exact hlen q (hq.trans hwx) hc
      · rcases List.mem_append.mp hs with hs | hs
        · obtain ⟨q, hq, rfl⟩ := w2 s hs
          exact hlen q hq hc
        · obtain ⟨q, hq, rfl⟩ := w3 s hs
          have hc : q = extractDir temp ++ x :: r := hc
          rw [hc, extractDir, List.append_assoc] at hq
          exact ha.1 ((prefix_self_append _).trans hq)
    exact run_other fs _ hn
  have b : ∀ n c, Obtained t v cwd (run fs (t1 ++ (t2 ++ t3))) n c → Obtained t v cwd fs n c :=
    fun n c h => b1 n c (b2 n c (b3 n c h))
  rcases hf : archiveFile t v cwd (temp ++ [c!"binary_archive"]) (run fs (t1 ++ (t2 ++ t3))) with ⟨s4, _ | ⟨p, c⟩⟩
  · rw [hf] at h; cases h
  · have hnear := download_near t v cwd temp c!"binary_archive" (run fs (t1 ++ (t2 ++ t3)))
    rw [hf] at h hnear
    dsimp only at h
    obtain ⟨_, s4', _, h4, rfl⟩ := andThen_split h
    rename_i hs4
    cases hs4
    clear h
    rename' h4 => h
    obtain ⟨o1, o2, nm, rfl, o4, o5⟩ := obtain_good m3 hw4 hf
    unfold installFrom at h
    split at h
    · cases h
    · rename_i hsha
      split at h
      · cases h
      · rename_i entries hre
        obtain ⟨t5, s5', a5, h5, rfl⟩ := andThen_split h
        clear h
        rename' h5 => h
        split at h
        · rename_i hpay
          rcases hcc : copyContents order rm n (run (run (run fs (t1 ++ (t2 ++ t3))) s4)
            t5) (payloadDir v (extractDir temp)) install with ⟨s6, k⟩
          rw [hcc] at h
          unfold copied at h
          cases k with
          | failed => cases h
          | unfinished => cases h
          | done k =>
            cases h
            refine ⟨t1 ++ (t2 ++ t3) ++ s4, t5, s6, p.getLast?.getD [], c, entries, k, by simp, by rw [run_append]; exact o1, ?_, ?_, ?_, b _ _ (o4 ?_ ?_), ?_,
              reads_iff _ _ _ _ hre, ?_, ?_, ?_⟩
            · rw [run_append]; exact o2.1 _ hx4
            · intro ha x r
              rw [run_append, ← g ha x r]
              rcases o5 with rfl | ⟨o5, o6⟩
              · rfl
              · rw [o6, if_neg]
                intro hc
                have hc : temp ++ ([c!"binary_archive"] ++ [c!"extract"] ++ x :: r) = temp ++ ([c!"binary_archive"] ++ [p.getLast?.getD []]) := by
                  simpa [extractDir] using hc
                have := congrArg List.length (List.append_cancel_left hc)
                simp at this
            · intro s hs
              rcases List.mem_append.mp hs with hs | hs
              · exact w s hs
              · exact Or.inl (hnear s hs)
            · intro hn
              rw [hn] at hre
              have : readArchive t c!"artifact.bin" c = none := rfl
              rw [this] at hre; cases hre
            · intro hn
              rw [hn] at hre
              have : readArchive t [] c = none := rfl
              rw [this] at hre; cases hre
            · intro d hd
              rw [hd] at hsha
              simpa using hsha
            · rw [run_append]; exact a5
            · rw [run_append, run_append]; exact hpay
            · rw [run_append, run_append]; exact hcc
        · cases h

theorem andThen_when {P : Step → Prop} {fs : FS} {a : List Step × Bool} {k : FS → List Step × Bool} (ha : ∀ s ∈ a.1, P s)
    (hk : a.2 = true → ∀ s ∈ (k (run fs a.1)).1, P s) : ∀ s ∈ (andThen fs a k).1, P s := by
  unfold andThen
  by_cases h : a.2 = true
  · rw [if_pos h]
    intro s hs
    rcases List.mem_append.mp hs with hs | hs
    · exact ha s hs
    · exact hk h s hs
  · rw [if_neg h]; exact ha

/-- A step in the directory for temporary files, or one that makes the directory to install in. -/
def Early (temp install : Path) (s : Step) : Prop := Near temp s ∨ ∃ q, q <+: install ∧ s = .mkdir q

theorem early_other {temp install : Path} (ha : Apart temp install) {steps : List Step} (h : ∀ s ∈ steps, Early temp install s) (fs : FS)
    (x : Str) (r : Path) : mget (run fs steps) (install ++ x :: r) = mget fs (install ++ x :: r) := by
  refine run_other fs steps fun s hs hc => ?_
  rcases h s hs with (h | ⟨q, hq, rfl⟩) | ⟨q, hq, rfl⟩
  · rw [hc] at h
    rcases List.prefix_or_prefix_of_prefix h (prefix_self_append (x :: r)) with h1 | h1
    · exact ha.1 h1
    · exact ha.2 h1
  · have hc : q = install ++ x :: r := hc
    rw [hc] at hq
    exact ha.2 ((prefix_self_append _).trans hq)
  · have hc : q = install ++ x :: r := hc
    have := hq.length_le
    rw [hc, List.length_append, List.length_cons] at this
    omega

/-- The steps of a run, up to what is done with the archive. -/
theorem install_steps {P : Step → Prop} (order : Listing) (rm : Order) (n : Nat) (t : ArchiveTools) (v : ArchiveVars)
    (cwd temp install : Path) (fs : FS) (hP : ∀ s, Early temp install s → P s)
    (hrest : ∀ fs' p c, (Ok fs → (∃ q, fs' = run fs q) ∧ (p ≠ c!"artifact.bin" → p ≠ [] → Obtained t v cwd fs p c)) →
      ∀ s ∈ (installFrom order rm n t v (extractDir temp) install p c fs').1, P s) :
    ∀ s ∈ (installArchive order rm n t v cwd temp install fs).1, P s := by
  unfold installArchive
  dsimp only
  have ex : temp ++ [c!"binary_archive"] ++ [c!"extract"] = extractDir temp := by unfold extractDir; simp
  rw [ex]
  have hwx : temp ++ [c!"binary_archive"] <+: extractDir temp := ex ▸ prefix_self_append _
  refine andThen_when (fun s hs => hP s (Or.inl (near_mono (prefix_self_append _) (Or.inr (makeAll_steps _ _ s hs))))) fun a1 => ?_
  refine andThen_when (fun s hs => hP s (Or.inl (near_mono (prefix_self_append _) (Or.inr (makeAll_steps _ _ s hs))))) fun a2 => ?_
  refine andThen_when (fun s hs => hP s (Or.inr (makeAll_steps _ _ s hs))) fun a3 => ?_
  rcases hf : archiveFile t v cwd (temp ++ [c!"binary_archive"]) (run (run (run fs (makeAll fs (temp ++ [c!"binary_archive"])).1)
    (makeAll (run fs (makeAll fs (temp ++ [c!"binary_archive"])).1) (extractDir temp)).1)
    (makeAll (run (run fs (makeAll fs (temp ++ [c!"binary_archive"])).1)
    (makeAll (run fs (makeAll fs (temp ++ [c!"binary_archive"])).1) (extractDir temp)).1) install).1) with ⟨s4, o⟩
  have hnear : ∀ s ∈ s4, Near temp s := by
    have := download_near t v cwd temp c!"binary_archive" (run (run (run fs (makeAll fs (temp ++ [c!"binary_archive"])).1)
      (makeAll (run fs (makeAll fs (temp ++ [c!"binary_archive"])).1) (extractDir temp)).1)
      (makeAll (run (run fs (makeAll fs (temp ++ [c!"binary_archive"])).1)
      (makeAll (run fs (makeAll fs (temp ++ [c!"binary_archive"])).1) (extractDir temp)).1) install).1)
    rw [hf] at this
    exact this
  cases o with
  | none => exact fun s hs => hP s (Or.inl (hnear s hs))
  | some pc =>
    obtain ⟨p, c⟩ := pc
    refine andThen_when (fun s hs => hP s (Or.inl (hnear s hs))) fun _ => ?_
    refine hrest _ _ _ fun hok => ⟨⟨_, by rw [← run_append, ← run_append, ← run_append]⟩, ?_⟩
    obtain ⟨m1, m1', _, _, _⟩ := makeAll_good hok (Prod.ext rfl a1)
    obtain ⟨m2, m2', x2, _, _⟩ := makeAll_good m1 (Prod.ext rfl a2)
    obtain ⟨m3, m3', _, _, _⟩ := makeAll_good m2 (Prod.ext rfl a3)
    obtain ⟨_, _, nm, rfl, o4, _⟩ := obtain_good m3 (m3'.1 _ (x2 _ hwx)) hf
    exact fun h1 h2 => obtained_back (obtained_back (obtained_back (o4 h1 h2)))

theorem payload_at {v : ArchiveVars} {parts : Path} (h : PayloadAt v parts) (d : Path) : payloadDir v d = d ++ parts := by
  unfold payloadDir
  rcases h with ⟨h, rfl⟩ | ⟨hne, hc, h⟩
  · rw [h, List.append_nil]
  · rw [h]
    show join d (joinWith c!"/" parts) = d ++ parts
    have hpush : ∀ (l : List Str) (d : Path), (∀ c ∈ l, Component c) → l.foldl pushPart d = d ++ l := by
      intro l
      induction l with
      | nil => intro d _; simp
      | cons a l ih =>
        intro d h
        have ha := h a List.mem_cons_self
        rw [List.foldl_cons, ih _ fun c hc => h c (List.mem_cons_of_mem _ hc)]
        unfold pushPart
        rw [if_neg ha.filled, if_neg ha.dots.1, if_neg ha.dots.2]
        simp
    unfold join
    rw [splitChar_join hne fun p hp => (hc p hp).slash, if_neg, hpush _ _ hc]
    cases parts with
    | nil => exact absurd rfl hne
    | cons a l =>
      have ha := hc a List.mem_cons_self
      intro hh
      have : (joinWith c!"/" (a :: l)).head? = a.head? := by
        cases a with
        | nil => exact absurd rfl ha.filled
        | cons x a => cases l <;> rfl
      rw [this] at hh
      exact ha.slash (List.mem_of_mem_head? hh)

end ArchiveLemmas
open ArchiveLemmas BuildCopyLemmas FilesLemmas

/-- C155: an archive is only installed if it is the one that is asked for, if its digest is the one that is given, if one is
given, and if it can be read. -/
theorem C155_checked (order : Listing) (rm : Order) (n : Nat) (t : ArchiveTools) (v : ArchiveVars) (cwd temp install : Path) (fs : FS)
    (hok : Ok fs) (h : (installArchive order rm n t v cwd temp install fs).2 = true) :
    ∃ name c entries, Obtained t v cwd fs name c ∧ (∀ d, v.sha256 = some d → d = t.hash c) ∧ Reads t name c entries := by
  obtain ⟨_, _, _, name, c, entries, _, _, _, _, _, _, h1, h2, h3, _⟩ := install_true hok (Prod.ext rfl h)
  exact ⟨name, c, entries, h1, h2, h3⟩

/-- C155: if the archive is missing, has another digest or cannot be read, then it is a failure and nothing in the directory to
install in changes. -/
theorem C155_refused (order : Listing) (rm : Order) (n : Nat) (t : ArchiveTools) (v : ArchiveVars) (cwd temp install : Path) (fs : FS)
    (hok : Ok fs) (ha : Apart temp install)
    (h : ∀ name c, Obtained t v cwd fs name c → (∃ d, v.sha256 = some d ∧ d ≠ t.hash c) ∨ ∀ entries, ¬ Reads t name c entries) :
    (installArchive order rm n t v cwd temp install fs).2 = false ∧
    ∀ x r, mget (run fs (installArchive order rm n t v cwd temp install fs).1) (install ++ x :: r) = mget fs (install ++ x :: r) := by
  constructor
  · cases hr : (installArchive order rm n t v cwd temp install fs).2 with
    | false => rfl
    | true =>
      obtain ⟨name, c, entries, h1, h2, h3⟩ := C155_checked order rm n t v cwd temp install fs hok hr
      rcases h name c h1 with ⟨d, hd, hne⟩ | h
      · exact absurd (h2 d hd) hne
      · exact absurd h3 (h entries)
  · refine early_other ha (install_steps order rm n t v cwd temp install fs (fun s hs => hs) ?_) fs
    intro fs' p c hp s hs
    have hnone : (installFrom order rm n t v (extractDir temp) install p c fs').1 = [] := by
      unfold installFrom
      by_cases hsha : v.sha256.any (· != t.hash c) = true
      · rw [if_pos hsha]
      · rw [if_neg hsha]
        have hr : readArchive t p c = none := by
          by_cases h1 : p = c!"artifact.bin"
          · rw [h1]; rfl
          · by_cases h2 : p = []
            · rw [h2]; rfl
            · rcases h p c ((hp hok).2 h1 h2) with ⟨d, hd, hne⟩ | h
              · rw [hd] at hsha
                simp [hne] at hsha
              · exact reads_none t p c h
        rw [hr]
    rw [hnone] at hs
    cases hs

/-- C155: what is installed.  Every file and directory of the archive is in the directory for them, with what was there before;
every entry of the directory that is installed is then in the directory to install in, exactly as there; the other entries of
the directory to install in stay. -/
theorem C155_installed (order : Listing) (ho : ListsAll order) (rm : Order) (hr : Lists rm) (n : Nat) (t : ArchiveTools)
    (v : ArchiveVars) (cwd temp install : Path) (fs : FS) (hok : Ok fs) (ha : Apart temp install) (parts : Path)
    (hp : PayloadAt v parts) (h : (installArchive order rm n t v cwd temp install fs).2 = true) :
    let fs' := run fs (installArchive order rm n t v cwd temp install fs).1
    let payload := extractDir temp ++ parts
    ∃ name c entries, Obtained t v cwd fs name c ∧ Reads t name c entries ∧
      (∀ p d, IsFile entries p d → mget fs' (extractDir temp ++ p) = some (.file d)) ∧
      (∀ p, IsDir entries p → mget fs' (extractDir temp ++ p) = some .dir) ∧
      (∀ p, p ≠ [] → ¬ Holds entries p → mget fs' (extractDir temp ++ p) = mget fs (extractDir temp ++ p)) ∧
      mget fs' payload = some .dir ∧ mget fs' install = some .dir ∧
      (∀ x r, (mget fs' (payload ++ [x])).isSome → mget fs' (install ++ x :: r) = mget fs' (payload ++ x :: r)) ∧
      (∀ x r, mget fs' (payload ++ [x]) = none → mget fs' (install ++ x :: r) = mget fs (install ++ x :: r)) := by
  intro fs' payload
  obtain ⟨s1, s2, s3, name, c, entries, k, hst, g1, g2, g3, g4, g5, g6, g7, g8, g9, g10⟩ := install_true hok (Prod.ext rfl h)
  rw [payload_at hp] at g9 g10
  obtain ⟨u1, u2, u3, u4, u5⟩ := unpack_good entries g1 g2 g8
  have hat : ∀ r, Apart (temp ++ r) install := fun r => ⟨fun hc => ha.1 ((prefix_self_append _).trans hc), fun hc => by
    rcases List.prefix_or_prefix_of_prefix (prefix_self_append r) hc with h1 | h1
    · exact ha.1 h1
    · exact ha.2 h1⟩
  have hap : Apart payload install := by
    show Apart (extractDir temp ++ parts) install
    unfold extractDir
    rw [List.append_assoc]
    exact hat _
  rw [← run_append] at u1 u3 u4 u5
  obtain ⟨_, c1, c2⟩ := contents_good ho hr n _ _ _ s3 k hap u1 g10
  have hn3 := contents_near hr (order := order) n (run fs (s1 ++ s2)) payload install
  rw [g10] at hn3
  have hfs : fs' = run (run fs (s1 ++ s2)) s3 :=
    (congrArg (run fs) hst).trans (by rw [← List.append_assoc, run_append])
  have hkeep : ∀ r, mget fs' (extractDir temp ++ r) = mget (run fs (s1 ++ s2)) (extractDir temp ++ r) := by
    intro r
    rw [hfs]
    exact near_source (by unfold extractDir; exact hat _) hn3 _ r
  have hkeepp : ∀ r, mget fs' (payload ++ r) = mget (run fs (s1 ++ s2)) (payload ++ r) := by
    intro r
    rw [hfs]
    exact near_source hap hn3 _ r
  have hold : ∀ x r, mget (run fs (s1 ++ s2)) (install ++ x :: r) = mget fs (install ++ x :: r) := by
    refine early_other ha (fun s hs => ?_) fs
    rcases List.mem_append.mp hs with hs | hs
    · exact g4 s hs
    · have hn2 := unpack_near (dest := extractDir temp) entries (run fs s1)
      rw [g8] at hn2
      exact Or.inl (near_mono (prefix_self_append _) (hn2 s hs))
  rw [← hfs] at c1 c2
  refine ⟨name, c, entries, g5, g7, ?_, ?_, ?_, ?_, c1, ?_, ?_⟩
  · intro p d hf
    rw [hkeep, u3 p d hf]
  · intro p hd
    rw [hkeep, u4 p hd]
  · intro p hne hno
    rw [hkeep, u5 p hno]
    cases p with
    | nil => exact absurd rfl hne
    | cons x r => exact g3 ha x r
  · have := hkeepp []
    rw [List.append_nil] at this
    rw [this]
    exact g9
  · intro x r hx
    rw [hkeepp] at hx
    rw [c2, hkeepp, if_pos hx]
  · intro x r hx
    rw [hkeepp] at hx
    rw [c2]
    have : (mget (run fs (s1 ++ s2)) (extractDir temp ++ parts ++ [x])).isSome ≠ true := by
      have e : mget (run fs (s1 ++ s2)) (extractDir temp ++ parts ++ [x]) = none := hx
      rw [e]; simp
    rw [if_neg this, hold]

/-- C155: an archive that is unpacked in a directory of its own is installed as it is: each of its entries at the top takes the
place of what was called like it, and the others stay.  Missing: the directory may hold the files of an earlier archive, see
`C155_stale_false`. -/
theorem C155_fresh_partial (order : Listing) (ho : ListsAll order) (rm : Order) (hr : Lists rm) (n : Nat) (t : ArchiveTools)
    (v : ArchiveVars) (cwd temp install : Path) (fs : FS) (hok : Ok fs) (ha : Apart temp install) (parts : Path)
    (hp : PayloadAt v parts) (hnew : Gone fs (extractDir temp))
    (h : (installArchive order rm n t v cwd temp install fs).2 = true) :
    let fs' := run fs (installArchive order rm n t v cwd temp install fs).1
    ∃ name c entries, Obtained t v cwd fs name c ∧ Reads t name c entries ∧
      (∀ p d, IsFile entries (parts ++ p) d → mget fs' (install ++ p) = some (.file d)) ∧
      (∀ p, IsDir entries (parts ++ p) → mget fs' (install ++ p) = some .dir) ∧
      (∀ x r, Holds entries (parts ++ [x]) → ¬ Holds entries (parts ++ x :: r) → mget fs' (install ++ x :: r) = none) ∧
      (∀ x r, ¬ Holds entries (parts ++ [x]) → mget fs' (install ++ x :: r) = mget fs (install ++ x :: r)) := by
  intro fs'
  obtain ⟨name, c, entries, h1, h2, h3, h4, h5, h6, h7, h8, h9⟩ :=
    C155_installed order ho rm hr n t v cwd temp install fs hok ha parts hp h
  change ∀ p d, IsFile entries p d → mget fs' (extractDir temp ++ p) = some (.file d) at h3
  change ∀ p, IsDir entries p → mget fs' (extractDir temp ++ p) = some .dir at h4
  change ∀ p, p ≠ [] → ¬ Holds entries p → mget fs' (extractDir temp ++ p) = mget fs (extractDir temp ++ p) at h5
  simp only [List.append_assoc] at h6 h8 h9
  have top : ∀ x r, Holds entries (parts ++ x :: r) → Holds entries (parts ++ [x]) := by
    intro x r hh
    cases r with
    | nil => exact hh
    | cons y r =>
      have hpre : parts ++ [x] <+: parts ++ x :: y :: r := append_prefix.mpr ⟨y :: r, rfl⟩
      rcases hh with ⟨d, pre, post, rfl, _⟩ | ⟨q, hq, hq'⟩ | ⟨q, d, hq, hq', hq''⟩
      · exact Or.inr (Or.inr ⟨_, d, List.mem_append_right _ List.mem_cons_self, hpre, by simp⟩)
      · exact Or.inr (Or.inl ⟨q, hq, hpre.trans hq'⟩)
      · refine Or.inr (Or.inr ⟨q, d, hq, hpre.trans hq', ?_⟩)
        rintro rfl
        have := hq'.length_le
        simp at this
  have some_ : ∀ p, Holds entries p → (mget fs' (extractDir temp ++ p)).isSome = true := by
    rintro p (⟨d, hd⟩ | hd)
    · rw [h3 p d hd]; rfl
    · rw [h4 p hd]; rfl
  refine ⟨name, c, entries, h1, h2, ?_, ?_, ?_, ?_⟩
  · intro p d hf
    cases p with
    | nil =>
      rw [List.append_nil] at hf
      have := h3 parts d hf
      have h6 : mget fs' (extractDir temp ++ parts) = some .dir := h6
      rw [h6] at this; cases this
    | cons x r =>
      rw [h8 x r (some_ _ (top x r (Or.inl ⟨d, hf⟩)))]
      exact h3 _ d hf
  · intro p hd
    cases p with
    | nil => rw [List.append_nil]; exact h7
    | cons x r =>
      rw [h8 x r (some_ _ (top x r (Or.inr hd)))]
      exact h4 _ hd
  · intro x r hx hno
    rw [h8 x r (some_ _ hx)]
    exact (h5 _ (by simp) hno).trans (hnew _)
  · intro x r hx
    exact h9 x r ((h5 _ (by simp) hx).trans (hnew _))

/-- C155: a crash at any point, or an error, only concerns the directory for temporary files and the directory to install in. -/
theorem C155_crash (order : Listing) (rm : Order) (hr : Lists rm) (n : Nat) (t : ArchiveTools) (v : ArchiveVars)
    (cwd temp install : Path) (fs : FS) (steps : List Step)
    (h : steps <+: (installArchive order rm n t v cwd temp install fs).1) : WithinBoth fs temp install (run fs steps) := by
  refine near_both (fun s hs => ?_) fs
  refine install_steps (P := fun s => Near temp s ∨ Near install s) order rm n t v cwd temp install fs ?_ ?_ s (h.subset hs)
  · rintro s (hs | hs)
    · exact Or.inl hs
    · exact Or.inr (Or.inr hs)
  · intro fs' p c _
    unfold installFrom
    split
    · intro s hs; cases hs
    · split
      · intro s hs; cases hs
      · refine andThen_all (fun s hs => Or.inl (near_mono (prefix_self_append _) (unpack_near _ _ s hs))) fun fs => ?_
        split
        · exact fun s hs => Or.inr (contents_near hr n _ _ _ s hs)
        · intro s hs; cases hs

/-! An example: an archive that replaces a program of an earlier version. -/
namespace ArchiveCase

def tools : ArchiveTools where
  fetch u := if u = c!"https://example.org/tool.zip" then some c!"zip" else none
  hash c := if c = c!"zip" then c!"ab12" else []
  unzip c := if c = c!"zip" then
      some [(some [c!"tool"], none), (some [c!"tool", c!"bin", c!"run"], some c!"new"), (none, some c!"evil"), (some [c!"readme"], some c!"r")]
    else none
  untar _ := none

def vars : ArchiveVars := ⟨none, some c!"https://example.org/tool.zip", some c!"ab12", some c!"tool"⟩
def before : FS := [([], .dir), ([c!"t"], .dir), ([c!"i"], .dir), ([c!"i", c!"bin"], .dir), ([c!"i", c!"bin", c!"old"], .file c!"o"),
  ([c!"i", c!"keep"], .file c!"k")]
def installing (v : ArchiveVars) (fs : FS) := installArchive id id 9 tools v [] [c!"t"] [c!"i"] fs
def after (v : ArchiveVars) (fs : FS) : FS := run fs (installing v fs).1

end ArchiveCase
open ArchiveCase

example : (installing vars before).2 = true ∧ PayloadAt vars [c!"tool"] ∧ Apart [c!"t"] [c!"i"] ∧
    mget (after vars before) [c!"i", c!"bin", c!"run"] = some (.file c!"new") ∧
    mget (after vars before) [c!"i", c!"bin", c!"old"] = none ∧
    mget (after vars before) [c!"i", c!"keep"] = some (.file c!"k") ∧
    mget (after vars before) [c!"i", c!"readme"] = none := by
  refine ⟨by decide +kernel, Or.inr ⟨by simp, ?_, rfl⟩, ⟨by decide, by decide⟩, by decide +kernel, by decide +kernel,
    by decide +kernel, by decide +kernel⟩
  intro c hc
  obtain rfl : c = c!"tool" := by simpa using hc
  exact ⟨by decide, by decide, by decide, by decide⟩

theorem before_ok : Ok before := by
  refine ⟨by decide, fun p q hq hne hp => ?_⟩
  obtain ⟨e, he⟩ := Option.isSome_iff_exists.mp hp
  have hm := mget_some_mem he
  simp only [before, List.mem_cons, List.not_mem_nil, or_false, Prod.mk.injEq] at hm
  have hq' : q ∈ p.inits := (List.mem_inits q p).mpr hq
  rcases hm with ⟨rfl, _⟩ | ⟨rfl, _⟩ | ⟨rfl, _⟩ | ⟨rfl, _⟩ | ⟨rfl, _⟩ | ⟨rfl, _⟩
  all_goals
    simp only [List.inits, List.map, List.mem_cons, List.not_mem_nil, or_false] at hq'
    rcases hq' with rfl | rfl | rfl | rfl <;> first | rfl | exact absurd rfl hne

/-- C155 is false of archives after others: the directory they are unpacked in is not emptied, and a build keeps it, so that a
file of the earlier archive is installed although the archive does not have it. -/
theorem C155_stale_false : ∃ fs v, (installing v fs).2 = true ∧
    (∀ l, tools.unzip c!"zip" = some l → ¬ Holds l [c!"left"]) ∧ mget fs [c!"i", c!"left"] = none ∧
    mget (after v fs) [c!"i", c!"left"] = some (.file c!"o") := by
  refine ⟨before ++ [([c!"t", c!"binary_archive"], .dir), ([c!"t", c!"binary_archive", c!"extract"], .dir),
    ([c!"t", c!"binary_archive", c!"extract", c!"left"], .file c!"o")], { vars with pre := none }, by decide +kernel, ?_,
    by decide +kernel, by decide +kernel⟩
  intro l hl
  cases hl
  rintro (⟨c, pre, post, h, _⟩ | ⟨q, h, h'⟩ | ⟨q, c, h, h', _⟩)
  · have : (some [c!"left"], some c) ∈ pre ++ (some [c!"left"], some c) :: post := by simp
    rw [← h] at this
    simp at this
  · simp at h
    subst h
    exact absurd h' (by decide)
  · simp at h
    rcases h with ⟨rfl, _⟩ | ⟨rfl, _⟩
    · exact absurd h' (by decide)
    · exact absurd h' (by decide)

/-- C155 is false of a directory in the archive that is given with `/` or `..`: it is taken from the machine, so that files that
are in no archive are installed. -/
theorem C155_prefix_false (p : Str) (hp : p = c!"/secret" ∨ p = c!"../../../secret") : ∃ fs,
    (installing { vars with pre := some p } fs).2 = true ∧
    mget (after { vars with pre := some p } fs) [c!"i", c!"key"] = mget fs [c!"secret", c!"key"] ∧
    mget fs [c!"secret", c!"key"] = some (.file c!"s") ∧ mget fs [c!"i", c!"key"] = none := by
  refine ⟨before ++ [([c!"secret"], .dir), ([c!"secret", c!"key"], .file c!"s")], ?_⟩
  rcases hp with rfl | rfl <;> decide +kernel

/-- C155 is false of crashes: a directory of the installed package is removed before it is copied, so that a crash may leave
neither what was there nor what comes. -/
theorem C155_gap_false : ∃ fs v steps, steps <+: (installing v fs).1 ∧ (installing v fs).2 = true ∧
    mget fs [c!"i", c!"bin"] = some .dir ∧ mget (after v fs) [c!"i", c!"bin"] = some .dir ∧
    mget (run fs steps) [c!"i", c!"bin"] = none := by
  have : ∃ k < (installing vars before).1.length + 1, mget (run before ((installing vars before).1.take k)) [c!"i", c!"bin"] = none := by
    decide +kernel
  obtain ⟨k, _, hk⟩ := this
  exact ⟨before, vars, _, List.take_prefix k _, by decide +kernel, rfl, by decide +kernel, hk⟩

/-- C155 is false of URLs that have more after the name of the archive, such as a token: the archive comes and is refused,
because of the end of its URL. -/
theorem C155_query_false (order : Listing) (rm : Order) (n : Nat) (t : ArchiveTools) (q : Str) (hq : '/' ∉ q)
    (hend : ∀ e ∈ [c!".zip", c!".tar.gz", c!".tgz"], ¬ e <:+ (c!"tool.zip?" ++ q).map lowerChar) (sha pre : Option Str)
    (cwd temp install : Path) (fs : FS) (hok : Ok fs) (ha : Apart temp install) :
    (installArchive order rm n t ⟨none, some (c!"https://example.org/tool.zip?" ++ q), sha, pre⟩ cwd temp install fs).2 = false := by
  refine (C155_refused order rm n t _ cwd temp install fs hok ha fun name c hc => Or.inr fun entries hr => ?_).1
  have hname : name = c!"tool.zip?" ++ q := by
    cases hc with
    | file a _ _ h => cases h
    | url u _ _ h hu hn hs =>
      cases hu
      have e : c!"https://example.org/tool.zip?" ++ q = c!"https://example.org" ++ '/' :: (c!"tool.zip?" ++ q) := rfl
      have hq' : '/' ∉ c!"tool.zip?" ++ q := by
        intro hc
        rcases List.mem_append.mp hc with hc | hc
        · exact absurd hc (by decide)
        · exact hq hc
      rw [e] at hn
      have l1 := splitChar_noSep hs
      rcases hn with rfl | ⟨a, hn⟩
      · exact absurd (List.mem_append_right _ List.mem_cons_self) hs
      · have := congrArg (fun s => (splitChar '/' s).getLast?) hn
        simp only [RexLemmas.splitChar_two, splitChar_noSep hs, splitChar_noSep hq', List.getLast?_append, List.getLast?_singleton,
          Option.some_or, Option.some.injEq] at this
        exact this.symm
  subst hname
  rcases hr with ⟨h, _⟩ | ⟨h | h, _⟩
  · exact hend _ (by simp) h
  · exact hend _ (by simp) h
  · exact hend _ (by simp) h

example : ∀ e ∈ [c!".zip", c!".tar.gz", c!".tgz"], ¬ e <:+ (c!"tool.zip?" ++ c!"token=1").map lowerChar := by decide

/-- C155 is false of digests in upper case: the right one is refused. -/
theorem C155_case_false : ∃ v : ArchiveVars, ∃ d, v.sha256 = some d ∧ d.map lowerChar = tools.hash c!"zip" ∧
    (installing v before).2 = false ∧ (installing { v with sha256 := none } before).2 = true :=
  ⟨{ vars with sha256 := some c!"AB12" }, c!"AB12", rfl, by decide, by decide +kernel, by decide +kernel⟩

/-- C155: what is to be installed comes from four variables of the build; one that is set to an empty text counts as not set. -/
theorem C155_variables (vars : List (Str × Str)) :
    let v := archiveVars vars
    ∀ k field, (k, field) ∈ [(c!"REZ_BINARY_ARCHIVE_ARTIFACT", v.artifact), (c!"REZ_BINARY_ARCHIVE_URL", v.url),
        (c!"REZ_BINARY_ARCHIVE_SHA256", v.sha256), (c!"REZ_BINARY_ARCHIVE_PAYLOAD_PREFIX", v.pre)] →
      ∀ x, field = some x ↔ mget vars k = some x ∧ x ≠ [] := by
  intro v k field h x
  have hf : field = filled vars k := by
    simp only [List.mem_cons, Prod.mk.injEq, List.not_mem_nil, or_false] at h
    rcases h with ⟨rfl, rfl⟩ | ⟨rfl, rfl⟩ | ⟨rfl, rfl⟩ | ⟨rfl, rfl⟩ <;> rfl
  rw [hf]
  unfold filled
  rw [Option.filter_eq_some_iff]
  simp

example : (archiveVars [(c!"REZ_BINARY_ARCHIVE_SHA256", c!"abc"), (c!"REZ_BINARY_ARCHIVE_URL", [])]) =
    ⟨none, none, some c!"abc", none⟩ := rfl

end Rez.Props
