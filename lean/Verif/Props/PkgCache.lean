import Verif.Lemmas.Requirement
import Verif.Spec.PkgCache
import Verif.Props.PackageFiles
import Verif.Props.Commands
import Verif.Props.Util
/-!
# C226: the command for the package cache
-/
namespace Rez.Props
open Rez Rez.Files Rez.Spec.Files Rez.PkgCache Rez.PkgCache.Spec FilesLemmas

/-! ## Making directories -/

theorem mkdirs_stay {steps : List Step} (hs : ∀ s ∈ steps, ∃ q, s = Step.mkdir q) (fs : FS) :
    (∀ q e, mget fs q = some e → mget (run fs steps) q = some e) ∧
    ∀ q e, mget fs q = none → mget (run fs steps) q = some e → e = .dir := by
  obtain ⟨ps, rfl⟩ : ∃ ps : List Path, steps = ps.map Step.mkdir := by
    induction steps with
    | nil => exact ⟨[], rfl⟩
    | cons s steps ih =>
      obtain ⟨q, rfl⟩ := hs s List.mem_cons_self
      obtain ⟨ps, rfl⟩ := ih fun s' h' => hs s' (List.mem_cons_of_mem _ h')
      exact ⟨q :: ps, rfl⟩
  constructor
  · intro q e he
    rw [mkdirs_get, he]
    simp
  · intro q e hn he
    rw [mkdirs_get, hn] at he
    split at he
    · simpa using he.symm
    · cases he

theorem cacheMake_steps (h : Host) (fs : FS) (p : Path) : ∀ s ∈ (makeAll h fs p).1, ∃ q, q <+: p ∧ s = Step.mkdir q := by
  intro s hs
  unfold makeAll at hs
  split at hs
  · cases hs
  · obtain ⟨q, hq, rfl⟩ := List.mem_map.mp hs
    exact ⟨q, (List.mem_inits q p).mp ((List.takeWhile_sublist _).subset hq), rfl⟩

theorem takeWhile_full {α : Type} {p : α → Bool} {l : List α} (h : (l.takeWhile p).length = l.length) : l.takeWhile p = l :=
  (List.takeWhile_sublist p).eq_of_length h

theorem makeAll_iff (h : Host) (fs : FS) (p : Path) : (makeAll h fs p).2 = true ↔ Makeable h fs p := by
  unfold makeAll Makeable
  have hb : blocked fs p = true ↔ ∃ q, q <+: p ∧ ∃ e, mget fs q = some e ∧ e ≠ .dir := by
    unfold blocked
    rw [List.any_eq_true]
    constructor
    · rintro ⟨q, hq, hx⟩
      cases hm : mget fs q with
      | none => simp [hm] at hx
      | some e => exact ⟨q, (List.mem_inits q p).mp hq, e, hm, by simpa [hm] using hx⟩
    · rintro ⟨q, hq, e, he, hd⟩
      exact ⟨q, (List.mem_inits q p).mpr hq, by simpa [he] using hd⟩
  split
  · rename_i hbl
    obtain ⟨q, hq, e, he, hd⟩ := hb.mp hbl
    refine iff_of_false (by simp) fun hm => ?_
    rcases hm q hq with h1 | ⟨h1, -⟩
    · rw [he] at h1
      exact hd (Option.some.inj h1)
    · rw [he] at h1
      cases h1
  · rename_i hbl
    simp only [beq_iff_eq]
    constructor
    · intro hl q hq
      have ht := takeWhile_full hl
      have hq' : q ∈ p.inits.takeWhile fun q => (mget fs q).isSome || !h.denied q := by
        rw [ht]
        exact (List.mem_inits q p).mpr hq
      have := List.mem_takeWhile_imp hq'
      cases hm : mget fs q with
      | none => exact .inr ⟨rfl, by simpa [hm] using this⟩
      | some e =>
        left
        by_contra hne
        exact hbl (hb.mpr ⟨q, hq, e, hm, fun he => hne (by rw [he])⟩)
    · intro hm
      rw [List.takeWhile_eq_self_iff.mpr]
      intro q hq
      rcases hm q ((List.mem_inits q p).mp hq) with h1 | ⟨h1, h2⟩
      · simp [h1]
      · simp [h1, h2]

theorem makeAll_made {h : Host} {fs : FS} {p : Path} (hm : (makeAll h fs p).2 = true) :
    (makeAll h fs p).1 = mkdirAll p ∧ ∀ q, q <+: p → mget (run fs (makeAll h fs p).1) q = some .dir := by
  have hk := (makeAll_iff h fs p).mp hm
  have h1 : (makeAll h fs p).1 = mkdirAll p := by
    unfold makeAll at hm ⊢
    split at hm
    · cases hm
    · rename_i hb
      rw [if_neg hb]
      simp only [beq_iff_eq] at hm
      simp only [mkdirAll]
      rw [takeWhile_full hm]
  refine ⟨h1, fun q hq => ?_⟩
  rw [h1, mkdirAll_get, if_pos hq]
  rcases hk q hq with h2 | ⟨h2, -⟩ <;> simp [h2]

/-! ## Requests -/

theorem stem_iff (n s : Str) : stem n = some s ↔ s ≠ [] ∧ n = s ++ c!".pending" := by
  unfold stem
  constructor
  · intro h
    split at h
    · rename_i hc
      rw [Bool.and_eq_true, List.isSuffixOf_iff_suffix, decide_eq_true_iff] at hc
      obtain ⟨⟨t, rfl⟩, hl⟩ := hc
      have he := Option.some.inj h
      have : (t ++ c!".pending").length - 8 = t.length := by simp
      rw [this, List.take_left' rfl] at he
      subst he
      refine ⟨?_, rfl⟩
      rintro rfl
      simp at hl
    · cases h
  · rintro ⟨hs, rfl⟩
    have hl : 0 < s.length := List.length_pos_iff.mpr hs
    rw [if_pos]
    · have : (s ++ c!".pending").length - 8 = s.length := by simp
      rw [this, List.take_left' rfl]
    · rw [Bool.and_eq_true, List.isSuffixOf_iff_suffix, decide_eq_true_iff]
      exact ⟨⟨s, rfl⟩, by simp; omega⟩

theorem wants_iff (dir : Path) (n : Str) (p : Path) : Wants dir n p ↔ ∃ s, stem n = some s ∧ p = join dir (uriOf s) := by
  unfold Wants uriOf
  constructor
  · rintro ⟨s, h1, h2, h3⟩
    exact ⟨s, (stem_iff n s).mpr ⟨h1, h2⟩, h3⟩
  · rintro ⟨s, h1, h2⟩
    obtain ⟨h3, h4⟩ := (stem_iff n s).mp h1
    exact ⟨s, h3, h4, h2⟩

/-- What a request can do: make directories towards what it asks for, and then remove itself. -/
theorem serve_cases (h : Host) (dir : Path) (fs : FS) (n : Str) :
    (∀ s ∈ (serve h dir fs n).1, ∃ q, s = Step.mkdir q ∧ ∃ p, Wants dir n p ∧ q <+: p) ∨
    ∃ p e, Wants dir n p ∧ (serve h dir fs n).1 = mkdirAll p ++ [.remove (requestAt dir n)] ∧ Makeable h fs p ∧
      mget (run fs (mkdirAll p)) (requestAt dir n) = some e ∧ e ≠ .dir := by
  unfold serve
  cases hs : stem n with
  | none => exact .inl fun s h => by cases h
  | some s =>
    have hw : Wants dir n (join dir (uriOf s)) := (wants_iff dir n _).mpr ⟨s, hs, rfl⟩
    have hmk : ∀ x ∈ (makeAll h fs (join dir (uriOf s))).1, ∃ q, x = Step.mkdir q ∧ ∃ p, Wants dir n p ∧ q <+: p := by
      intro x hx
      obtain ⟨q, hq, rfl⟩ := cacheMake_steps h fs _ x hx
      exact ⟨q, rfl, _, hw, hq⟩
    simp only
    split
    · rename_i hm
      obtain ⟨h1, h2⟩ := makeAll_made hm
      split
      · exact .inl (by simpa using hmk)
      · exact .inl (by simpa using hmk)
      · rename_i e he hg
        split
        · exact .inl (by simpa using hmk)
        · rw [h1] at hg ⊢
          exact .inr ⟨_, e, hw, rfl, (makeAll_iff h fs _).mp hm, hg, fun hd => he hd⟩
    · exact .inl hmk

/-- While a request is served, nothing goes but the request, and only when what it asks for is there. -/
theorem serve_safe (h : Host) (dir : Path) (fs : FS) (n : Str) (pre : List Step) (hp : pre <+: (serve h dir fs n).1) :
    (∀ q, mget fs q = some .dir → mget (run fs pre) q = some .dir) ∧
    (∀ q e, mget fs q = some e → mget (run fs pre) q = some e ∨
      q = requestAt dir n ∧ e ≠ .dir ∧ ∃ p, Wants dir n p ∧ mget (run fs pre) p = some .dir) ∧
    ∀ q e, mget fs q = none → mget (run fs pre) q = some e → e = .dir := by
  have easy : (∀ s ∈ pre, ∃ q, s = Step.mkdir q) → _ := fun hs => (mkdirs_stay hs fs)
  rcases serve_cases h dir fs n with hc | ⟨p, e, hw, hc, hk, hg, hd⟩
  · obtain ⟨h1, h2⟩ := easy fun s hs => by obtain ⟨q, hq, -⟩ := hc s (hp.subset hs); exact ⟨q, hq⟩
    exact ⟨fun q hq => h1 q _ hq, fun q e he => .inl (h1 q e he), h2⟩
  · rw [hc] at hp
    have hall : ∀ s ∈ mkdirAll p, ∃ q, s = Step.mkdir q := by
      intro s hs
      obtain ⟨q, -, rfl⟩ := List.mem_map.mp hs
      exact ⟨q, rfl⟩
    rcases prefix_append_cases hp with h1 | ⟨p', rfl, h1⟩
    · obtain ⟨h1, h2⟩ := easy fun s hs => hall s (h1.subset hs)
      exact ⟨fun q hq => h1 q _ hq, fun q e he => .inl (h1 q e he), h2⟩
    · obtain ⟨h3, h4⟩ := mkdirs_stay hall fs
      have hcase : p' = [] ∨ p' = [.remove (requestAt dir n)] := by
        rcases p' with _ | ⟨x, _ | ⟨y, l⟩⟩
        · exact .inl rfl
        · right
          obtain ⟨t, ht⟩ := h1
          simp at ht
          rw [ht.1]
        · obtain ⟨t, ht⟩ := h1
          simp at ht
      rcases hcase with rfl | rfl
      · rw [List.append_nil]
        exact ⟨fun q hq => h3 q _ hq, fun q e he => .inl (h3 q e he), h4⟩
      · rw [run_append]
        have hr : ∀ q, mget (run (run fs (mkdirAll p)) [.remove (requestAt dir n)]) q =
            if q = requestAt dir n then none else mget (run fs (mkdirAll p)) q := fun q => mget_mdel _ _ _
        have hpd : mget (run fs (mkdirAll p)) p = some .dir := by
          rw [mkdirAll_get, if_pos (List.prefix_refl p)]
          rcases hk p (List.prefix_refl p) with h2 | ⟨h2, -⟩ <;> simp [h2]
        have hpn : p ≠ requestAt dir n := by
          rintro rfl
          rw [hg] at hpd
          exact hd (Option.some.inj hpd)
        refine ⟨fun q hq => ?_, fun q e' he => ?_, fun q e' hq he => ?_⟩
        · have h5 := h3 q _ hq
          rw [hr, if_neg, h5]
          rintro rfl
          rw [hg] at h5
          exact hd (Option.some.inj h5)
        · by_cases hq : q = requestAt dir n
          · right
            have h5 := h3 q _ he
            rw [hq, hg] at h5
            refine ⟨hq, ?_, p, hw, by rw [hr, if_neg hpn, hpd]⟩
            rw [← Option.some.inj h5]
            exact hd
          · left
            rw [hr, if_neg hq, h3 q _ he]
        · rw [hr] at he
          split at he
          · cases he
          · exact h4 q e' hq he

theorem serveAll_safe (h : Host) (dir : Path) (ns : List Str) (fs : FS) (pre : List Step)
    (hp : pre <+: (serveAll h dir fs ns).1) :
    (∀ q, mget fs q = some .dir → mget (run fs pre) q = some .dir) ∧
    (∀ q e, mget fs q = some e → mget (run fs pre) q = some e ∨
      ∃ n ∈ ns, q = requestAt dir n ∧ e ≠ .dir ∧ ∃ p, Wants dir n p ∧ mget (run fs pre) p = some .dir) ∧
    ∀ q e, mget fs q = none → mget (run fs pre) q = some e → e = .dir := by
  induction ns generalizing fs pre with
  | nil =>
    have : pre = [] := List.prefix_nil.mp hp
    subst this
    exact ⟨fun q hq => hq, fun q e he => .inl he, fun q e hq he => by rw [show mget (run fs []) q = mget fs q from rfl, hq] at he; cases he⟩
  | cons n ns ih =>
    rcases prefix_append_cases hp with h1 | ⟨p', rfl, h1⟩
    · obtain ⟨a, b, c⟩ := serve_safe h dir fs n pre h1
      refine ⟨a, fun q e he => (b q e he).imp id fun hx => ⟨n, List.mem_cons_self, hx⟩, c⟩
    · obtain ⟨a, b, c⟩ := serve_safe h dir fs n _ (List.prefix_refl _)
      obtain ⟨a', b', c'⟩ := ih (run fs (serve h dir fs n).1) p' h1
      rw [run_append]
      refine ⟨fun q hq => a' q (a q hq), fun q e he => ?_, fun q e hq he => ?_⟩
      · rcases b q e he with h2 | ⟨h2, h3, p, h4, h5⟩
        · rcases b' q e h2 with h6 | ⟨m, hm, h6⟩
          · exact .inl h6
          · exact .inr ⟨m, List.mem_cons_of_mem _ hm, h6⟩
        · exact .inr ⟨n, List.mem_cons_self, h2, h3, p, h4, a' p h5⟩
      · cases hm : mget (run fs (serve h dir fs n).1) q with
        | none => exact c' q e hm he
        | some e' =>
          have := c q e' hq hm
          subst this
          have h2 := a' q hm
          rw [he] at h2
          exact Option.some.inj h2

/-! ## The other operations -/

theorem addAll_steps (h : Host) (dir : Path) (uris : List Str) (fs : FS) :
    ∀ s ∈ addAll h dir fs uris, ∃ q, s = Step.mkdir q ∧ ∃ u ∈ uris, q <+: addTarget h dir u := by
  induction uris generalizing fs with
  | nil => intro s hs; cases hs
  | cons u us ih =>
    intro s hs
    rcases List.mem_append.mp hs with h1 | h1
    · obtain ⟨q, hq, rfl⟩ := cacheMake_steps h fs _ s h1
      exact ⟨q, rfl, u, List.mem_cons_self, hq⟩
    · obtain ⟨q, hq, v, hv, hp⟩ := ih _ s h1
      exact ⟨q, hq, v, List.mem_cons_of_mem _ hv, hp⟩

theorem children_iff {h : Host} (ho : Lists h.order) {fs : FS} (hn : (mkeys fs).Nodup) (p : Path) (e : Path × Entry) :
    e ∈ children h fs p ↔ mget fs p = some .dir ∧ ∃ x, e.1 = p ++ [x] ∧ mget fs (p ++ [x]) = some e.2 := by
  unfold children
  split
  · rename_i hd
    rw [List.mem_filter, (ho fs).mem_iff, Bool.and_eq_true, List.isPrefixOf_iff_prefix, beq_iff_eq]
    constructor
    · rintro ⟨he, ⟨t, ht⟩, hl⟩
      rw [← ht, List.length_append] at hl
      obtain ⟨x, rfl⟩ : ∃ x, t = [x] := List.length_eq_one_iff.mp (by omega)
      exact ⟨hd, x, ht.symm, by rw [ht]; exact mget_of_mem hn he⟩
    · rintro ⟨-, x, h1, h2⟩
      refine ⟨?_, ⟨[x], h1.symm⟩, by rw [h1]; simp⟩
      rw [← h1] at h2
      exact mget_some_mem h2
  · rename_i hd
    exact iff_of_false (by simp) fun hx => hd hx.1

theorem nameOf_snoc (p : Path) (x : Str) : nameOf (p ++ [x]) = x := by simp [nameOf]

/-- A directory without children is empty. -/
theorem children_empty {h : Host} (ho : Lists h.order) {fs : FS} (hok : Ok fs) {p : Path} (hd : mget fs p = some .dir) :
    (children h fs p).isEmpty = true ↔ Spec.Empty fs p := by
  rw [List.isEmpty_iff]
  constructor
  · intro hc
    refine ⟨hd, fun r hr => ?_⟩
    by_contra hs
    obtain ⟨x, t, rfl⟩ : ∃ x t, r = x :: t := by
      cases r with
      | nil => exact absurd rfl hr
      | cons x t => exact ⟨x, t, rfl⟩
    have hx : ∃ e, mget fs (p ++ [x]) = some e := by
      cases t with
      | nil => exact Option.ne_none_iff_exists'.mp hs
      | cons y t =>
        refine ⟨.dir, hok.parents (p ++ x :: y :: t) (p ++ [x]) ⟨y :: t, by simp⟩ ?_ (Option.isSome_iff_ne_none.mpr hs)⟩
        intro he
        have := congrArg List.length he
        simp at this
    obtain ⟨e, he⟩ := hx
    have : (p ++ [x], e) ∈ children h fs p := (children_iff ho hok.nodup p _).mpr ⟨hd, x, rfl, he⟩
    rw [hc] at this
    cases this
  · intro he
    refine List.eq_nil_iff_forall_not_mem.mpr fun e hx => ?_
    obtain ⟨-, x, h1, h2⟩ := (children_iff ho hok.nodup p e).mp hx
    rw [he.2 [x] (by simp)] at h2
    cases h2

theorem ok_remove {fs : FS} (hok : Ok fs) {p : Path} (he : Spec.Empty fs p) : Ok (run fs [.remove p]) := by
  refine ⟨nodup_run hok.nodup _, fun a b hb hne hs => ?_⟩
  have hr : ∀ q, mget (run fs [Step.remove p]) q = if q = p then none else mget fs q := fun q => mget_mdel _ _ _
  rw [hr] at hs ⊢
  split at hs
  · cases hs
  · rename_i hap
    have := hok.parents a b hb hne hs
    rw [if_neg, this]
    rintro rfl
    obtain ⟨t, rfl⟩ := hb
    have ht : t ≠ [] := by rintro rfl; simp at hne
    rw [he.2 t ht] at hs
    cases hs

/-- Cleaning removes empty directories only, and all of them that may be removed. -/
theorem cleanEach_safe {h : Host} (ho : Lists h.order) (ps : List Path) (fs : FS) (hok : Ok fs) (hpw : ∀ a ∈ ps, ∀ b ∈ ps, a <+: b → a = b)
    (hnd : ps.Nodup) :
    (∀ pre, pre <+: (cleanEach h fs ps).1 → ∀ q, mget (run fs pre) q = mget fs q ∨
      mget (run fs pre) q = none ∧ q ∈ ps ∧ Spec.Empty fs q ∧ h.stuck q = false) ∧
    (∀ q ∈ ps, Spec.Empty fs q → h.stuck q = false → mget (run fs (cleanEach h fs ps).1) q = none) ∧
    ((∀ q ∈ ps, h.stuck q = false) →
      (cleanEach h fs ps).2 = (ps.filter fun q => (mget fs q).isSome && !(mget (run fs (cleanEach h fs ps).1) q).isSome).length) := by
  induction ps generalizing fs with
  | nil =>
    refine ⟨fun pre hp q => .inl ?_, (by intro q hq; cases hq), fun _ => rfl⟩
    rw [List.prefix_nil.mp hp]
    rfl
  | cons p ps ih =>
    obtain ⟨hp1, hnd'⟩ := List.nodup_cons.mp hnd
    have hpw' : ∀ a ∈ ps, ∀ b ∈ ps, a <+: b → a = b := fun a ha b hb => hpw a (List.mem_cons_of_mem _ ha) b (List.mem_cons_of_mem _ hb)
    by_cases hc : mget fs p = some .dir ∧ (children h fs p).isEmpty
    · have hemp := (children_empty ho hok hc.1).mp hc.2
      by_cases hst : h.stuck p = true
      · have hdef : cleanEach h fs (p :: ps) = ((cleanEach h fs ps).1, (cleanEach h fs ps).2 + 1) := by
          conv_lhs => unfold cleanEach
          rw [if_pos hc]
          simp [hst, run]
        rw [hdef]
        obtain ⟨a, b, c⟩ := ih fs hok hpw' hnd'
        refine ⟨fun pre hp q => (a pre hp q).imp id fun hx => ⟨hx.1, List.mem_cons_of_mem _ hx.2.1, hx.2.2⟩, fun q hq he hs => ?_, fun hall => ?_⟩
        · rcases List.mem_cons.mp hq with rfl | hq
          · rw [hst] at hs
            cases hs
          · exact b q hq he hs
        · have := hall p List.mem_cons_self
          rw [hst] at this
          cases this
      · have hst' : h.stuck p = false := by simpa using hst
        have hdef : cleanEach h fs (p :: ps) = (Step.remove p :: (cleanEach h (run fs [.remove p]) ps).1, (cleanEach h (run fs [.remove p]) ps).2 + 1) := by
          conv_lhs => unfold cleanEach
          rw [if_pos hc]
          simp [hst']
        have hr : ∀ q, mget (run fs [Step.remove p]) q = if q = p then none else mget fs q := fun q => mget_mdel _ _ _
        obtain ⟨a, b, c⟩ := ih (run fs [.remove p]) (ok_remove hok hemp) hpw' hnd'
        have hempty : ∀ q ∈ ps, Spec.Empty (run fs [.remove p]) q ↔ Spec.Empty fs q := by
          intro q hq
          have hqp : q ≠ p := by rintro rfl; exact hp1 hq
          unfold Spec.Empty
          rw [hr, if_neg hqp]
          refine and_congr Iff.rfl (forall_congr' fun r => forall_congr' fun hr' => ?_)
          rw [hr, if_neg]
          intro he
          exact hqp (hpw q (List.mem_cons_of_mem _ hq) p List.mem_cons_self ⟨r, he⟩)
        rw [hdef]
        refine ⟨fun pre hp q => ?_, fun q hq he hs => ?_, fun hall => ?_⟩
        · rcases pre with _ | ⟨s, pre⟩
          · exact .inl rfl
          · obtain ⟨rfl, hp'⟩ := List.cons_prefix_cons.mp hp
            rw [run_cons]
            rcases a pre hp' q with h1 | ⟨h1, h2, h3, h4⟩
            · have h1' : mget (run (Step.apply fs (.remove p)) pre) q = if q = p then none else mget fs q := by
                rw [← hr]
                exact h1
              by_cases hq : q = p
              · subst hq
                right
                rw [h1', if_pos rfl]
                exact ⟨rfl, List.mem_cons_self, hemp, hst'⟩
              · left
                rw [h1', if_neg hq]
            · exact .inr ⟨h1, List.mem_cons_of_mem _ h2, (hempty q h2).mp h3, h4⟩
        · rw [run_cons]
          rcases List.mem_cons.mp hq with rfl | hq
          · rcases a _ (List.prefix_refl _) q with h1 | h1
            · rw [show Step.apply fs (.remove q) = run fs [.remove q] from rfl, h1, hr, if_pos rfl]
            · exact h1.1
          · exact b q hq ((hempty q hq).mpr he) hs
        · show (cleanEach h (run fs [.remove p]) ps).2 + 1 = (List.filter (fun q => (mget fs q).isSome &&
            !(mget (run (Step.apply fs (.remove p)) (cleanEach h (run fs [.remove p]) ps).1) q).isSome) (p :: ps)).length
          have h1 := c fun q hq => hall q (List.mem_cons_of_mem _ hq)
          have hgone : mget (run (Step.apply fs (.remove p)) (cleanEach h (run fs [.remove p]) ps).1) p = none := by
            rcases a _ (List.prefix_refl _) p with h2 | h2
            · rw [show Step.apply fs (.remove p) = run fs [.remove p] from rfl, h2, hr, if_pos rfl]
            · exact h2.1
          rw [h1, List.filter_cons, if_pos (by rw [hgone, hc.1]; rfl), List.length_cons]
          congr 1
          refine congrArg List.length (List.filter_congr fun q hq => ?_)
          have hqp : q ≠ p := by rintro rfl; exact hp1 hq
          rw [hr, if_neg hqp]
          rfl
    · have hdef : cleanEach h fs (p :: ps) = cleanEach h fs ps := by
        conv_lhs => unfold cleanEach
        rw [if_neg hc]
      rw [hdef]
      obtain ⟨a, b, c⟩ := ih fs hok hpw' hnd'
      refine ⟨fun pre hp q => (a pre hp q).imp id fun hx => ⟨hx.1, List.mem_cons_of_mem _ hx.2.1, hx.2.2⟩, fun q hq he hs => ?_, fun hall => ?_⟩
      · rcases List.mem_cons.mp hq with rfl | hq
        · exact absurd ⟨he.1, (children_empty ho hok he.1).mpr he⟩ hc
        · exact b q hq he hs
      · rw [c fun q hq => hall q (List.mem_cons_of_mem _ hq), List.filter_cons, if_neg]
        rcases a _ (List.prefix_refl _) p with h1 | h1
        · rw [h1]
          cases mget fs p <;> simp
        · exact absurd h1.2.1 hp1

/-! ## What remains a file system -/

theorem inits_closed {α : Type} {p : List α} {ps : List (List α)} (h : ps <+: p.inits) {a b : List α} (ha : a ∈ ps) (hb : b <+: a) :
    b ∈ ps := by
  induction p generalizing ps a b with
  | nil =>
    have : a = [] := by simpa using h.subset ha
    subst this
    rw [List.prefix_nil.mp hb]
    exact ha
  | cons x p ih =>
    rw [List.inits_cons] at h
    rcases ps with _ | ⟨y, ps⟩
    · cases ha
    · obtain ⟨rfl, h'⟩ := List.cons_prefix_cons.mp h
      obtain ⟨qs, hq, rfl⟩ := List.prefix_map_iff.mp h'
      rcases b with _ | ⟨z, b⟩
      · exact List.mem_cons_self
      · rcases List.mem_cons.mp ha with rfl | ha'
        · cases List.prefix_nil.mp hb
        · obtain ⟨a', ha'', rfl⟩ := List.mem_map.mp ha'
          obtain ⟨rfl, hb'⟩ := List.cons_prefix_cons.mp hb
          exact List.mem_cons_of_mem _ (List.mem_map.mpr ⟨b, ih hq ha'' hb', rfl⟩)

theorem ok_mkdirs {fs : FS} (hok : Ok fs) {p : Path} {ps : List Path} (hps : ps <+: p.inits) (hb : blocked fs p = false) :
    Ok (run fs (ps.map Step.mkdir)) := by
  refine ⟨nodup_run hok.nodup _, fun a b hba hne hs => ?_⟩
  have hdir : ∀ q ∈ ps, (mget fs q).getD .dir = .dir := by
    intro q hq
    unfold blocked at hb
    have h1 := List.any_eq_false.mp hb q (hps.subset hq)
    cases hm : mget fs q with
    | none => rfl
    | some e => simpa [hm] using h1
  rw [mkdirs_get] at hs ⊢
  split at hs
  · rename_i ha
    have hbm := inits_closed hps ha hba
    rw [if_pos hbm, hdir b hbm]
  · have h1 := hok.parents a b hba hne hs
    split
    · rw [h1]
      rfl
    · exact h1

theorem makeAll_ok {fs : FS} (hok : Ok fs) (h : Host) (p : Path) {pre : List Step} (hp : pre <+: (makeAll h fs p).1) : Ok (run fs pre) := by
  unfold makeAll at hp
  split at hp
  · rw [List.prefix_nil.mp hp]
    exact hok
  · rename_i hb
    obtain ⟨qs, hq, rfl⟩ := List.prefix_map_iff.mp hp
    exact ok_mkdirs hok (hq.trans (List.takeWhile_prefix _)) (by simpa using hb)

theorem ok_remove_file {fs : FS} (hok : Ok fs) {p : Path} {e : Entry} (he : mget fs p = some e) (hd : e ≠ .dir) :
    Ok (run fs [.remove p]) := by
  refine ⟨nodup_run hok.nodup _, fun a b hb hne hs => ?_⟩
  have hr : ∀ q, mget (run fs [Step.remove p]) q = if q = p then none else mget fs q := fun q => mget_mdel _ _ _
  rw [hr] at hs ⊢
  split at hs
  · cases hs
  · have := hok.parents a b hb hne hs
    rw [if_neg, this]
    rintro rfl
    rw [he] at this
    exact hd (Option.some.inj this)

theorem serve_ok {fs : FS} (hok : Ok fs) (h : Host) (dir : Path) (n : Str) {pre : List Step} (hp : pre <+: (serve h dir fs n).1) :
    Ok (run fs pre) := by
  unfold serve at hp
  cases hs : stem n with
  | none =>
    rw [hs] at hp
    rw [List.prefix_nil.mp hp]
    exact hok
  | some s =>
    rw [hs] at hp
    simp only at hp
    split at hp
    · rcases prefix_append_cases hp with h1 | ⟨p', rfl, h1⟩
      · exact makeAll_ok hok h _ h1
      · have hm := makeAll_ok hok h (join dir (uriOf s)) (List.prefix_refl _)
        rw [run_append]
        split at h1
        · rw [List.prefix_nil.mp h1]
          exact hm
        · rw [List.prefix_nil.mp h1]
          exact hm
        · rename_i e he hg
          split at h1
          · rw [List.prefix_nil.mp h1]
            exact hm
          · rcases p' with _ | ⟨x, _ | ⟨y, l⟩⟩
            · exact hm
            · obtain ⟨t, ht⟩ := h1
              simp at ht
              rw [ht.1]
              exact ok_remove_file hm hg fun hd => he hd
            · obtain ⟨t, ht⟩ := h1
              simp at ht
    · exact makeAll_ok hok h _ hp

theorem serveAll_ok {fs : FS} (hok : Ok fs) (h : Host) (dir : Path) (ns : List Str) {pre : List Step}
    (hp : pre <+: (serveAll h dir fs ns).1) : Ok (run fs pre) := by
  induction ns generalizing fs pre with
  | nil =>
    rw [List.prefix_nil.mp hp]
    exact hok
  | cons n ns ih =>
    rcases prefix_append_cases hp with h1 | ⟨p', rfl, h1⟩
    · exact serve_ok hok h dir n h1
    · rw [run_append]
      exact ih (serve_ok hok h dir n (List.prefix_refl _)) h1

/-! ## The command -/

/-- The first steps make the directory. -/
def firstSteps (h : Host) (fs : FS) (dir : Path) : List Step × Bool := if (mget fs dir).isSome then ([], true) else makeAll h fs dir

theorem firstSteps_mkdir (h : Host) (fs : FS) (dir : Path) : ∀ s ∈ (firstSteps h fs dir).1, ∃ q, q <+: dir ∧ s = Step.mkdir q := by
  unfold firstSteps
  split
  · intro s hs
    cases hs
  · exact cacheMake_steps h fs dir

theorem firstSteps_ok {fs : FS} (hok : Ok fs) (h : Host) (dir : Path) {pre : List Step} (hp : pre <+: (firstSteps h fs dir).1) :
    Ok (run fs pre) := by
  unfold firstSteps at hp
  split at hp
  · rw [List.prefix_nil.mp hp]
    exact hok
  · exact makeAll_ok hok h dir hp

/-- The steps of the command. -/
theorem execute_steps (h : Host) (lines : Str → List Str) (a : Args) (fs : FS) {dir : Path} (hdir : cacheDir h a.dir = some dir) :
    (execute h lines a fs).1 = (firstSteps h fs dir).1 ++
      (if (firstSteps h fs dir).2 then
        if a.daemon then (daemon h dir (run fs (firstSteps h fs dir).1)).1
        else if a.add ≠ [] then addAll h dir (run fs (firstSteps h fs dir).1) a.add
        else if a.remove ≠ [] then []
        else if a.clean then (clean h dir (run fs (firstSteps h fs dir).1)).1
        else []
      else []) := by
  have hf : (if (mget fs dir).isSome then (([] : List Step), true) else makeAll h fs dir) = firstSteps h fs dir := rfl
  unfold execute
  rw [hdir]
  simp only [hf]
  cases (firstSteps h fs dir).2
  · simp
  · simp only [Bool.not_true, Bool.false_eq_true, if_false, if_true]
    cases a.daemon
    · simp only [Bool.false_eq_true, if_false]
      cases ha : a.add with
      | cons => simp
      | nil =>
        cases hr : a.remove with
        | cons => simp
        | nil =>
          cases a.clean
          · simp only [List.isEmpty_nil, Bool.not_true, Bool.false_eq_true, if_false, ne_eq, not_true_eq_false, List.append_nil]
            split
            · split <;> rfl
            · split <;> rfl
          · simp
    · simp

theorem daemon_steps (h : Host) (dir : Path) (fs : FS) :
    (daemon h dir fs).1 = (firstSteps h fs (dir ++ [c!"pending"])).1 ++
      (if (firstSteps h fs (dir ++ [c!"pending"])).2 then
        (serveAll h dir (run fs (firstSteps h fs (dir ++ [c!"pending"])).1) (requests h (run fs (firstSteps h fs (dir ++ [c!"pending"])).1) dir)).1
      else []) := by
  have hf : (if (mget fs (dir ++ [c!"pending"])).isSome then (([] : List Step), true) else makeAll h fs (dir ++ [c!"pending"])) =
    firstSteps h fs (dir ++ [c!"pending"]) := rfl
  unfold daemon
  simp only [hf]
  split <;> simp

theorem requests_iff {h : Host} (ho : Lists h.order) {fs : FS} (hok : Ok fs) (dir : Path) (n : Str) :
    n ∈ requests h fs dir ↔ (mget fs (requestAt dir n)).isSome ∧ ∃ p, Wants dir n p := by
  unfold requests
  rw [List.mem_filter, List.mem_map]
  have hw : (stem n).isSome = true ↔ ∃ p, Wants dir n p := by
    constructor
    · intro hs
      obtain ⟨s, hs⟩ := Option.isSome_iff_exists.mp hs
      exact ⟨_, (wants_iff dir n _).mpr ⟨s, hs, rfl⟩⟩
    · rintro ⟨p, hp⟩
      obtain ⟨s, hs, -⟩ := (wants_iff dir n p).mp hp
      rw [hs]
      rfl
  rw [hw]
  refine and_congr ?_ Iff.rfl
  have hat : requestAt dir n = dir ++ [c!"pending"] ++ [n] := by simp [requestAt]
  constructor
  · rintro ⟨e, he, rfl⟩
    obtain ⟨-, x, h1, h2⟩ := (children_iff ho hok.nodup _ e).mp he
    rw [h1, nameOf_snoc]
    simp only [requestAt, List.append_assoc, List.cons_append, List.nil_append] at h2 ⊢
    rw [h2]
    rfl
  · intro hs
    obtain ⟨e, he⟩ := Option.isSome_iff_exists.mp hs
    refine ⟨(requestAt dir n, e), (children_iff ho hok.nodup _ _).mpr ⟨?_, n, hat, by rw [← hat]; exact he⟩, by rw [hat]; exact nameOf_snoc _ _⟩
    refine hok.parents (requestAt dir n) _ ⟨[n], hat.symm⟩ ?_ hs
    intro heq
    have := congrArg List.length heq
    simp [requestAt] at this

theorem children_paths {h : Host} (ho : Lists h.order) {fs : FS} (hn : (mkeys fs).Nodup) (p : Path) :
    (∀ a ∈ (children h fs p).map Prod.fst, ∀ b ∈ (children h fs p).map Prod.fst, a <+: b → a = b) ∧ ((children h fs p).map Prod.fst).Nodup := by
  constructor
  · intro a ha b hb hab
    obtain ⟨e, he, rfl⟩ := List.mem_map.mp ha
    obtain ⟨e', he', rfl⟩ := List.mem_map.mp hb
    obtain ⟨-, x, h1, -⟩ := (children_iff ho hn p e).mp he
    obtain ⟨-, y, h2, -⟩ := (children_iff ho hn p e').mp he'
    exact hab.eq_of_length (by rw [h1, h2]; simp)
  · unfold children
    split
    · refine List.Nodup.sublist (List.Sublist.map _ List.filter_sublist) ?_
      exact ((ho fs).map Prod.fst).nodup_iff.mpr hn
    · exact List.nodup_nil

/-- C226: wherever the command stops, nothing that was there is changed or gone but a served request, whose directory is there by
then, and a directory in the cache that was empty. -/
theorem C226_safe (h : Host) (ho : Lists h.order) (lines : Str → List Str) (a : Args) (fs : FS) (hok : Ok fs) (dir : Path)
    (hdir : cacheDir h a.dir = some dir) (pre : List Step) (hp : Stops (execute h lines a fs).1 pre) (q : Path) (e : Entry)
    (he : mget fs q = some e) :
    mget (run fs pre) q = some e ∨
    (a.daemon = true ∧ e ≠ .dir ∧ ∃ n p, q = requestAt dir n ∧ Wants dir n p ∧ mget (run fs pre) p = some .dir) ∨
    (a.daemon = false ∧ a.clean = true ∧ (∃ x, q = dir ++ [x]) ∧ Spec.Empty fs q) := by
  unfold Stops at hp
  rw [execute_steps h lines a fs hdir] at hp
  have hmk : ∀ s ∈ (firstSteps h fs dir).1, ∃ q, s = Step.mkdir q := fun s hs => by
    obtain ⟨q, -, hq⟩ := firstSteps_mkdir h fs dir s hs
    exact ⟨q, hq⟩
  rcases prefix_append_cases hp with h1 | ⟨p', rfl, h1⟩
  · exact .inl ((mkdirs_stay (fun s hs => hmk s (h1.subset hs)) fs).1 q e he)
  · rw [run_append]
    have hok1 := firstSteps_ok hok h dir (List.prefix_refl _)
    have he1 := (mkdirs_stay hmk fs).1 q e he
    have hback : ∀ r, mget (run fs (firstSteps h fs dir).1) r = none → mget fs r = none := by
      intro r hr
      by_contra hne
      obtain ⟨x, hx⟩ := Option.ne_none_iff_exists'.mp hne
      rw [(mkdirs_stay hmk fs).1 r x hx] at hr
      cases hr
    generalize run fs (firstSteps h fs dir).1 = fs1 at *
    split at h1
    · split at h1
      · rename_i hd
        rw [daemon_steps] at h1
        have hmk2 : ∀ s ∈ (firstSteps h fs1 (dir ++ [c!"pending"])).1, ∃ q, s = Step.mkdir q := fun s hs => by
          obtain ⟨q, -, hq⟩ := firstSteps_mkdir h fs1 _ s hs
          exact ⟨q, hq⟩
        rcases prefix_append_cases h1 with h2 | ⟨p'', rfl, h2⟩
        · exact .inl ((mkdirs_stay (fun s hs => hmk2 s (h2.subset hs)) fs1).1 q e he1)
        · rw [run_append]
          have he2 := (mkdirs_stay hmk2 fs1).1 q e he1
          generalize run fs1 (firstSteps h fs1 (dir ++ [c!"pending"])).1 = fs2 at *
          split at h2
          · rcases (serveAll_safe h dir _ fs2 p'' h2).2.1 q e he2 with h3 | ⟨n, -, h3, h4, p, h5, h6⟩
            · exact .inl h3
            · exact .inr (.inl ⟨hd, h4, n, p, h3, h5, h6⟩)
          · rw [List.prefix_nil.mp h2]
            exact .inl he2
      · split at h1
        · refine .inl ((mkdirs_stay (fun s hs => ?_) fs1).1 q e he1)
          obtain ⟨q, hq, -⟩ := addAll_steps h dir _ _ s (h1.subset hs)
          exact ⟨q, hq⟩
        · split at h1
          · rw [List.prefix_nil.mp h1]
            exact .inl he1
          · split at h1
            · rename_i hd _ _ hc
              obtain ⟨c1, c2⟩ := children_paths ho hok1.nodup dir
              rcases (cleanEach_safe ho _ fs1 hok1 c1 c2).1 p' h1 q with h2 | ⟨-, h2, h3, -⟩
              · left
                rw [h2]
                exact he1
              · obtain ⟨x, hx, rfl⟩ := List.mem_map.mp h2
                obtain ⟨-, y, hy, -⟩ := (children_iff ho hok1.nodup dir x).mp hx
                refine .inr (.inr ⟨by simpa using hd, hc, ⟨y, hy⟩, ?_, fun r hr => hback _ (h3.2 r hr)⟩)
                rw [he, ← he1, h3.1]
            · rw [List.prefix_nil.mp h1]
              exact .inl he1
    · rw [List.prefix_nil.mp h1]
      exact .inl he1

/-- C226: all that comes into being is directories: the payload of a package is never there. -/
theorem C226_payload_false (h : Host) (ho : Lists h.order) (lines : Str → List Str) (a : Args) (fs : FS) (hok : Ok fs) (pre : List Step)
    (hp : Stops (execute h lines a fs).1 pre) (q : Path) (e : Entry) (hn : mget fs q = none) (he : mget (run fs pre) q = some e) :
    e = .dir := by
  unfold Stops at hp
  cases hdir : cacheDir h a.dir with
  | none =>
    unfold execute at hp
    rw [hdir] at hp
    rw [List.prefix_nil.mp hp] at he
    rw [show mget (run fs []) q = mget fs q from rfl, hn] at he
    cases he
  | some dir =>
    rw [execute_steps h lines a fs hdir] at hp
    have hmk : ∀ s ∈ (firstSteps h fs dir).1, ∃ q, s = Step.mkdir q := fun s hs => by
      obtain ⟨q, -, hq⟩ := firstSteps_mkdir h fs dir s hs
      exact ⟨q, hq⟩
    rcases prefix_append_cases hp with h1 | ⟨p', rfl, h1⟩
    · exact (mkdirs_stay (fun s hs => hmk s (h1.subset hs)) fs).2 q e hn he
    · rw [run_append] at he
      have hok1 := firstSteps_ok hok h dir (List.prefix_refl _)
      have hn1 : mget (run fs (firstSteps h fs dir).1) q = none ∨ mget (run fs (firstSteps h fs dir).1) q = some .dir := by
        cases hm : mget (run fs (firstSteps h fs dir).1) q with
        | none => exact .inl rfl
        | some x => rw [(mkdirs_stay hmk fs).2 q x hn hm]; exact .inr rfl
      generalize run fs (firstSteps h fs dir).1 = fs1 at *
      have nil : ∀ {f : FS} {l : List Step}, mget f q = none ∨ mget f q = some .dir → l <+: [] → mget (run f l) q = some e → e = .dir := by
        intro f l h1 h2 h3
        rw [List.prefix_nil.mp h2] at h3
        change mget f q = some e at h3
        rcases h1 with h1 | h1 <;> rw [h1] at h3
        · cases h3
        · exact (Option.some.inj h3).symm
      have mk : ∀ {f : FS} {l : List Step}, mget f q = none ∨ mget f q = some .dir → (∀ s ∈ l, ∃ q, s = Step.mkdir q) →
          mget (run f l) q = some e → e = .dir := by
        intro f l h1 h2 h3
        rcases h1 with h1 | h1
        · exact (mkdirs_stay h2 f).2 q e h1 h3
        · rw [(mkdirs_stay h2 f).1 q _ h1] at h3
          exact (Option.some.inj h3).symm
      split at h1
      · split at h1
        · rw [daemon_steps] at h1
          have hmk2 : ∀ s ∈ (firstSteps h fs1 (dir ++ [c!"pending"])).1, ∃ q, s = Step.mkdir q := fun s hs => by
            obtain ⟨q, -, hq⟩ := firstSteps_mkdir h fs1 _ s hs
            exact ⟨q, hq⟩
          rcases prefix_append_cases h1 with h2 | ⟨p'', rfl, h2⟩
          · exact mk hn1 (fun s hs => hmk2 s (h2.subset hs)) he
          · rw [run_append] at he
            have hn2 : mget (run fs1 (firstSteps h fs1 (dir ++ [c!"pending"])).1) q = none ∨
                mget (run fs1 (firstSteps h fs1 (dir ++ [c!"pending"])).1) q = some .dir := by
              rcases hn1 with h3 | h3
              · cases hm : mget (run fs1 (firstSteps h fs1 (dir ++ [c!"pending"])).1) q with
                | none => exact .inl rfl
                | some x => rw [(mkdirs_stay hmk2 fs1).2 q x h3 hm]; exact .inr rfl
              · exact .inr ((mkdirs_stay hmk2 fs1).1 q _ h3)
            generalize run fs1 (firstSteps h fs1 (dir ++ [c!"pending"])).1 = fs2 at *
            split at h2
            · obtain ⟨s1, -, s3⟩ := serveAll_safe h dir _ fs2 p'' h2
              rcases hn2 with h3 | h3
              · exact s3 q e h3 he
              · rw [s1 q h3] at he
                exact (Option.some.inj he).symm
            · exact nil hn2 h2 he
        · split at h1
          · refine mk hn1 (fun s hs => ?_) he
            obtain ⟨q, hq, -⟩ := addAll_steps h dir _ _ s (h1.subset hs)
            exact ⟨q, hq⟩
          · split at h1
            · exact nil hn1 h1 he
            · split at h1
              · obtain ⟨c1, c2⟩ := children_paths ho hok1.nodup dir
                rcases (cleanEach_safe ho _ fs1 hok1 c1 c2).1 p' h1 q with h2 | ⟨h2, -⟩
                · rw [h2] at he
                  rcases hn1 with h3 | h3 <;> rw [h3] at he
                  · cases he
                  · exact (Option.some.inj he).symm
                · rw [h2] at he
                  cases he
              · exact nil hn1 h1 he
      · exact nil hn1 h1 he

/-! ## Requests are served -/

theorem makeable_mono {h : Host} {fs fs' : FS} {p : Path} (hm : Makeable h fs p) (h1 : ∀ q, mget fs q = some .dir → mget fs' q = some .dir)
    (h2 : ∀ q e, mget fs q = none → mget fs' q = some e → e = .dir) : Makeable h fs' p := by
  intro q hq
  rcases hm q hq with h3 | ⟨h3, h4⟩
  · exact .inl (h1 q h3)
  · cases hm : mget fs' q with
    | none => exact .inr ⟨rfl, h4⟩
    | some e => exact .inl (by rw [h2 q e h3 hm])

theorem wants_unique {dir : Path} {n : Str} {p p' : Path} (h : Wants dir n p) (h' : Wants dir n p') : p = p' := by
  obtain ⟨s, hs, rfl⟩ := (wants_iff dir n p).mp h
  obtain ⟨s', hs', rfl⟩ := (wants_iff dir n p').mp h'
  rw [hs] at hs'
  cases hs'
  rfl

theorem requestAt_inj {dir : Path} {n m : Str} (h : requestAt dir n = requestAt dir m) : n = m := by
  unfold requestAt at h
  simpa using h

theorem serveAll_done (h : Host) (dir : Path) (ns : List Str) (fs : FS) (n : Str) (hn : n ∈ ns) (p : Path) (hw : Wants dir n p)
    (hm : Makeable h fs p) (e : Entry) (he : mget fs (requestAt dir n) = some e) (hd : e ≠ .dir)
    (hs : h.stuck (requestAt dir n) = false) :
    mget (run fs (serveAll h dir fs ns).1) p = some .dir ∧
    ∀ e', mget (run fs (serveAll h dir fs ns).1) (requestAt dir n) = some e' → e' = .dir := by
  induction ns generalizing fs with
  | nil => cases hn
  | cons m ns ih =>
    obtain ⟨a, b, c⟩ := serve_safe h dir fs m _ (List.prefix_refl _)
    obtain ⟨a', -, c'⟩ := serveAll_safe h dir ns (run fs (serve h dir fs m).1) _ (List.prefix_refl _)
    show mget (run fs ((serve h dir fs m).1 ++ (serveAll h dir (run fs (serve h dir fs m).1) ns).1)) p = some .dir ∧
      ∀ e', mget (run fs ((serve h dir fs m).1 ++ (serveAll h dir (run fs (serve h dir fs m).1) ns).1)) (requestAt dir n) = some e' → e' = .dir
    rw [run_append]
    by_cases hnm : m = n
    · subst hnm
      have hserve : (serve h dir fs m).1 = mkdirAll p ++ [.remove (requestAt dir m)] := by
        obtain ⟨s, hs1, rfl⟩ := (wants_iff dir m p).mp hw
        have h2 := (makeAll_iff h fs _).mpr hm
        obtain ⟨h3, -⟩ := makeAll_made h2
        have h4 : mget (run fs (makeAll h fs (join dir (uriOf s))).1) (dir ++ [c!"pending", m]) = some e := by
          refine (mkdirs_stay (fun s' hs' => ?_) fs).1 _ _ he
          obtain ⟨q, -, hq⟩ := cacheMake_steps h fs _ s' hs'
          exact ⟨q, hq⟩
        unfold serve
        rw [hs1]
        simp only [h2, if_true, h4]
        rw [h3]
        have hst : h.stuck (dir ++ [c!"pending", m]) = false := hs
        cases e with
        | dir => exact absurd rfl hd
        | file c => simp [hst, requestAt]
        | link c => simp [hst, requestAt]
        | special => simp [hst, requestAt]
      have hr : ∀ q, mget (run fs (serve h dir fs m).1) q = if q = requestAt dir m then none else mget (run fs (mkdirAll p)) q := by
        intro q
        rw [hserve, run_append]
        exact mget_mdel _ _ _
      have hpd : mget (run fs (mkdirAll p)) p = some .dir := by
        rw [mkdirAll_get, if_pos (List.prefix_refl p)]
        rcases hm p (List.prefix_refl p) with h2 | ⟨h2, -⟩ <;> simp [h2]
      have hpn : p ≠ requestAt dir m := by
        rintro rfl
        rcases hm _ (List.prefix_refl _) with h2 | ⟨h2, -⟩
        · rw [he] at h2
          exact hd (Option.some.inj h2)
        · rw [he] at h2
          cases h2
      refine ⟨a' p (by rw [hr, if_neg hpn, hpd]), fun e' he' => ?_⟩
      refine c' (requestAt dir m) e' (by rw [hr, if_pos rfl]) he'
    · have hmem : n ∈ ns := by
        rcases List.mem_cons.mp hn with h1 | h1
        · exact absurd h1.symm hnm
        · exact h1
      refine ih (run fs (serve h dir fs m).1) hmem (makeable_mono hm a c) ?_
      rcases b _ e he with h1 | ⟨h1, -⟩
      · exact h1
      · exact absurd (requestAt_inj h1).symm hnm

/-- The requests that were cached and those that failed: after a run the directories of the first are there, and those of
the others could not be made when it began. -/
theorem serveAll_split (h : Host) (dir : Path) (ns : List Str) (fs : FS) (hw : ∀ n ∈ ns, ∃ p, Wants dir n p) :
    ∃ done failed : List Str, (done ++ failed).Perm ns ∧ (serveAll h dir fs ns).2.count true = done.length ∧
      (serveAll h dir fs ns).2.count false = failed.length ∧
      (∀ n ∈ done, ∃ p, Wants dir n p ∧ mget (run fs (serveAll h dir fs ns).1) p = some .dir) ∧
      ∀ n ∈ failed, ∃ p, Wants dir n p ∧ ¬ Makeable h fs p := by
  induction ns generalizing fs with
  | nil => exact ⟨[], [], .refl _, rfl, rfl, fun n hn => (by cases hn), fun n hn => (by cases hn)⟩
  | cons n ns ih =>
    obtain ⟨a, b, c⟩ := serve_safe h dir fs n _ (List.prefix_refl _)
    obtain ⟨a', -, -⟩ := serveAll_safe h dir ns (run fs (serve h dir fs n).1) _ (List.prefix_refl _)
    obtain ⟨done, failed, h1, h2, h3, h4, h5⟩ := ih (run fs (serve h dir fs n).1) fun m hm => hw m (List.mem_cons_of_mem _ hm)
    obtain ⟨p, hp⟩ := hw n List.mem_cons_self
    have hrun : run fs (serveAll h dir fs (n :: ns)).1 = run (run fs (serve h dir fs n).1) (serveAll h dir (run fs (serve h dir fs n).1) ns).1 := by
      show run fs ((serve h dir fs n).1 ++ _) = _
      rw [run_append]
    have hflags : (serveAll h dir fs (n :: ns)).2 = (serve h dir fs n).2 :: (serveAll h dir (run fs (serve h dir fs n).1) ns).2 := rfl
    have h5' : ∀ m ∈ failed, ∃ p, Wants dir m p ∧ ¬ Makeable h fs p := fun m hm => by
      obtain ⟨q, hq, hn⟩ := h5 m hm
      exact ⟨q, hq, fun hk => hn (makeable_mono hk a c)⟩
    obtain ⟨s, hs, rfl⟩ := (wants_iff dir n p).mp hp
    rw [hrun, hflags]
    cases hm : (makeAll h fs (join dir (uriOf s))).2 with
    | true =>
      have hf : (serve h dir fs n).2 = true := by
        unfold serve
        rw [hs]
        simp [hm]
      refine ⟨n :: done, failed, h1.cons n, ?_, ?_, ?_, h5'⟩
      · rw [hf, List.count_cons_self, h2, List.length_cons]
      · rw [hf, List.count_cons_of_ne (by decide), h3]
      · intro m hmem
        rcases List.mem_cons.mp hmem with rfl | hmem
        · refine ⟨_, hp, a' _ ?_⟩
          rcases serve_cases h dir fs m with hc | ⟨q, e, hq, hc, hk, hg, hd⟩
          · have h6 := (makeAll_made hm).2 _ (List.prefix_refl _)
            obtain ⟨rest, hsteps⟩ : ∃ rest, (serve h dir fs m).1 = (makeAll h fs (join dir (uriOf s))).1 ++ rest := by
              unfold serve
              rw [hs]
              simp only [hm, if_true]
              exact ⟨_, rfl⟩
            rw [hsteps, run_append]
            refine (mkdirs_stay (fun x hx => ?_) _).1 _ _ h6
            obtain ⟨q, hq, -⟩ := hc x (by rw [hsteps]; exact List.mem_append_right _ hx)
            exact ⟨q, hq⟩
          · have hpq := wants_unique hq hp
            subst hpq
            have h6 : mget (run fs (mkdirAll (join dir (uriOf s)))) (join dir (uriOf s)) = some .dir := by
              rw [mkdirAll_get, if_pos (List.prefix_refl _)]
              rcases hk _ (List.prefix_refl _) with h2 | ⟨h2, -⟩ <;> simp [h2]
            rw [hc, run_append]
            show mget (mdel (run fs (mkdirAll (join dir (uriOf s)))) (requestAt dir m)) _ = _
            rw [mget_mdel, if_neg, h6]
            intro he
            have h7 := hg
            rw [← he, h6] at h7
            exact hd (Option.some.inj h7).symm
        · exact h4 m hmem
    | false =>
      have hf : (serve h dir fs n).2 = false := by
        unfold serve
        rw [hs]
        simp [hm]
      refine ⟨done, n :: failed, List.perm_middle.trans (h1.cons n), ?_, ?_, h4, ?_⟩
      · rw [hf, List.count_cons_of_ne (by decide), h2]
      · rw [hf, List.count_cons_self, h3, List.length_cons]
      · intro m hmem
        rcases List.mem_cons.mp hmem with rfl | hmem
        · refine ⟨_, hp, fun hk => ?_⟩
          rw [(makeAll_iff h fs _).mpr hk] at hm
          cases hm
        · exact h5' m hmem

/-- If there is a request, the first steps are not needed. -/
theorem request_dirs {fs : FS} (hok : Ok fs) (h : Host) {dir : Path} {n : Str} {e : Entry} (he : mget fs (requestAt dir n) = some e) :
    firstSteps h fs dir = ([], true) ∧ firstSteps h fs (dir ++ [c!"pending"]) = ([], true) := by
  have h1 : mget fs dir = some .dir := by
    refine hok.parents (requestAt dir n) dir ⟨_, rfl⟩ ?_ (by rw [he]; rfl)
    intro hc
    have := congrArg List.length hc
    simp [requestAt] at this
  have h2 : mget fs (dir ++ [c!"pending"]) = some .dir := by
    refine hok.parents (requestAt dir n) _ ⟨[n], by simp [requestAt]⟩ ?_ (by rw [he]; rfl)
    intro hc
    have := congrArg List.length hc
    simp [requestAt] at this
  unfold firstSteps
  rw [h1, h2]
  exact ⟨rfl, rfl⟩

/-- C226: a request whose directory can be made is served: then the directory is there, and the request is not. -/
theorem C226_served (h : Host) (ho : Lists h.order) (lines : Str → List Str) (a : Args) (hdm : a.daemon = true) (fs : FS) (hok : Ok fs)
    (dir : Path) (hdir : cacheDir h a.dir = some dir) (n : Str) (p : Path) (hw : Wants dir n p) (hm : Makeable h fs p) (e : Entry)
    (he : mget fs (requestAt dir n) = some e) (hd : e ≠ .dir) (hs : h.stuck (requestAt dir n) = false) :
    mget (run fs (execute h lines a fs).1) p = some .dir ∧
    ∀ e', mget (run fs (execute h lines a fs).1) (requestAt dir n) = some e' → e' = .dir := by
  obtain ⟨h1, h2⟩ := request_dirs hok h he
  rw [execute_steps h lines a fs hdir, h1]
  simp only [if_true, hdm, List.nil_append]
  rw [daemon_steps]
  simp only [show run fs [] = fs from rfl, h2, if_true, List.nil_append]
  exact serveAll_done h dir _ fs n ((requests_iff ho hok dir n).mpr ⟨by rw [he]; rfl, p, hw⟩) p hw hm e he hd hs

/-- C226: the numbers that are told are those of the requests that were served and of those that failed: each request is one or the other;
the directory of one that was served is there, and that of one that failed could not be made. -/
theorem C226_counts (h : Host) (ho : Lists h.order) (lines : Str → List Str) (a : Args) (hdm : a.daemon = true) (fs : FS) (hok : Ok fs)
    (dir : Path) (hdir : cacheDir h a.dir = some dir) (x y : Nat) (hr : (execute h lines a fs).2 = .ok (.served x y))
    (names : List Str) (hnd : names.Nodup) (hn : ∀ n, n ∈ names ↔ (mget fs (requestAt dir n)).isSome ∧ ∃ p, Wants dir n p) :
    ∃ done failed : List Str, (done ++ failed).Perm names ∧ x = done.length ∧ y = failed.length ∧
      (∀ n ∈ done, ∃ p, Wants dir n p ∧ mget (run fs (execute h lines a fs).1) p = some .dir) ∧
      ∀ n ∈ failed, ∃ p, Wants dir n p ∧ ¬ Makeable h fs p := by
  rw [execute_steps h lines a fs hdir, hdm, daemon_steps]
  have hf : (if (mget fs dir).isSome then (([] : List Step), true) else makeAll h fs dir) = firstSteps h fs dir := rfl
  unfold execute at hr
  rw [hdir] at hr
  simp only [hf, hdm] at hr
  split at hr
  · cases hr
  · simp only [if_true] at hr
    have hok1 := firstSteps_ok hok h dir (List.prefix_refl _)
    have hf2 : (if (mget (run fs (firstSteps h fs dir).1) (dir ++ [c!"pending"])).isSome then (([] : List Step), true)
      else makeAll h (run fs (firstSteps h fs dir).1) (dir ++ [c!"pending"])) = firstSteps h (run fs (firstSteps h fs dir).1) (dir ++ [c!"pending"]) := rfl
    unfold daemon at hr
    simp only [hf2] at hr
    split at hr
    · have hok2 := firstSteps_ok hok1 h (dir ++ [c!"pending"]) (List.prefix_refl _)
      have hreq : ∀ n, n ∈ requests h (run (run fs (firstSteps h fs dir).1) (firstSteps h (run fs (firstSteps h fs dir).1) (dir ++ [c!"pending"])).1) dir ↔
          n ∈ names := by
        intro n
        rw [requests_iff ho hok2, hn]
        refine and_congr ?_ Iff.rfl
        have hpath : ∀ (f : FS) (d : Path), (¬ requestAt dir n <+: d) → mget (run f (firstSteps h f d).1) (requestAt dir n) = mget f (requestAt dir n) := by
          intro f d hnp
          refine run_other f _ fun s hs => ?_
          obtain ⟨q, hq, rfl⟩ := firstSteps_mkdir h f d s hs
          rintro rfl
          exact hnp hq
        rw [hpath, hpath]
        · intro hc
          have := hc.length_le
          simp only [requestAt, List.length_append, List.length_cons, List.length_nil] at this
          omega
        · intro hc
          have := hc.length_le
          simp only [requestAt, List.length_append, List.length_cons, List.length_nil] at this
          omega
      have hnodup : (requests h (run (run fs (firstSteps h fs dir).1) (firstSteps h (run fs (firstSteps h fs dir).1) (dir ++ [c!"pending"])).1) dir).Nodup := by
        unfold requests
        refine List.Nodup.filter _ ?_
        generalize run (run fs (firstSteps h fs dir).1) (firstSteps h (run fs (firstSteps h fs dir).1) (dir ++ [c!"pending"])).1 = f at *
        have h1 := (children_paths ho hok2.nodup (dir ++ [c!"pending"])).2
        have h2 : (children h f (dir ++ [c!"pending"])).map (fun e => nameOf e.1) = ((children h f (dir ++ [c!"pending"])).map Prod.fst).map nameOf := by
          rw [List.map_map]
          rfl
        rw [h2]
        refine List.Nodup.map_on ?_ h1
        intro u hu v hv huv
        obtain ⟨e, he, rfl⟩ := List.mem_map.mp hu
        obtain ⟨e', he', rfl⟩ := List.mem_map.mp hv
        obtain ⟨-, s, h3, -⟩ := (children_iff ho hok2.nodup _ e).mp he
        obtain ⟨-, t, h4, -⟩ := (children_iff ho hok2.nodup _ e').mp he'
        rw [h3, h4, nameOf_snoc, nameOf_snoc] at huv
        rw [h3, h4, huv]
      have hlen := (List.perm_ext_iff_of_nodup hnodup hnd).mpr hreq
      injection hr with hr
      injection hr with hx hy
      have hkeep : ∀ (f : FS) (d : Path), (∀ q e, mget f q = some e → mget (run f (firstSteps h f d).1) q = some e) ∧
          ∀ q e, mget f q = none → mget (run f (firstSteps h f d).1) q = some e → e = .dir := fun f d =>
        mkdirs_stay (fun s hs => by obtain ⟨q, -, hq⟩ := firstSteps_mkdir h f d s hs; exact ⟨q, hq⟩) f
      obtain ⟨done, failed, h1, h2, h3, h4, h5⟩ := serveAll_split h dir
        (requests h (run (run fs (firstSteps h fs dir).1) (firstSteps h (run fs (firstSteps h fs dir).1) (dir ++ [c!"pending"])).1) dir)
        (run (run fs (firstSteps h fs dir).1) (firstSteps h (run fs (firstSteps h fs dir).1) (dir ++ [c!"pending"])).1)
        fun n hn => ((requests_iff ho hok2 dir n).mp hn).2
      rename_i hf1 hf3
      refine ⟨done, failed, h1.trans hlen, by rw [← hx, h2], by rw [← hy, h3], fun n hn => ?_, fun n hn => ?_⟩
      · obtain ⟨p, hp, hd⟩ := h4 n hn
        refine ⟨p, hp, ?_⟩
        have hf1' : (firstSteps h fs dir).2 = true := by simpa using hf1
        rw [hf1', hf3]
        simp only [if_true]
        rw [run_append, run_append]
        exact hd
      · obtain ⟨p, hp, hd⟩ := h5 n hn
        refine ⟨p, hp, fun hk => hd ?_⟩
        have k1 := makeable_mono hk (fun q hq => (hkeep fs dir).1 q _ hq) (hkeep fs dir).2
        exact makeable_mono k1 (fun q hq => (hkeep _ (dir ++ [c!"pending"])).1 q _ hq) (hkeep _ _).2
    · cases hr

theorem daemon_ok {fs : FS} (hok : Ok fs) (h : Host) (dir : Path) {pre : List Step} (hp : pre <+: (daemon h dir fs).1) : Ok (run fs pre) := by
  rw [daemon_steps] at hp
  rcases prefix_append_cases hp with h1 | ⟨p', rfl, h1⟩
  · exact firstSteps_ok hok h _ h1
  · rw [run_append]
    have hok1 := firstSteps_ok hok h (dir ++ [c!"pending"]) (List.prefix_refl _)
    split at h1
    · exact serveAll_ok hok1 h dir _ h1
    · rw [List.prefix_nil.mp h1]
      exact hok1

/-- C226: a crash loses no request: if the command is stopped anywhere and run again, then the directory that was asked for is there,
and the request is not. -/
theorem C226_recovered (h : Host) (ho : Lists h.order) (lines : Str → List Str) (a : Args) (hdm : a.daemon = true) (fs : FS) (hok : Ok fs)
    (dir : Path) (hdir : cacheDir h a.dir = some dir) (n : Str) (p : Path) (hw : Wants dir n p) (hm : Makeable h fs p) (e : Entry)
    (he : mget fs (requestAt dir n) = some e) (hd : e ≠ .dir) (hs : h.stuck (requestAt dir n) = false) (pre : List Step)
    (hp : Stops (execute h lines a fs).1 pre) :
    mget (run (run fs pre) (execute h lines a (run fs pre)).1) p = some .dir ∧
    ∀ e', mget (run (run fs pre) (execute h lines a (run fs pre)).1) (requestAt dir n) = some e' → e' = .dir := by
  obtain ⟨h1, h2⟩ := request_dirs hok h he
  have hsteps : (execute h lines a fs).1 = (serveAll h dir fs (requests h fs dir)).1 := by
    rw [execute_steps h lines a fs hdir, h1]
    simp only [if_true, hdm, List.nil_append]
    rw [daemon_steps]
    simp only [show run fs [] = fs from rfl, h2, if_true, List.nil_append]
  unfold Stops at hp
  rw [hsteps] at hp
  have hok' := serveAll_ok hok h dir _ hp
  obtain ⟨s1, s2, s3⟩ := serveAll_safe h dir _ fs pre hp
  have hpay := fun q x => C226_payload_false h ho lines a (run fs pre) hok' (execute h lines a (run fs pre)).1 (List.prefix_refl _) q x
  have hsafe := fun q x => C226_safe h ho lines a (run fs pre) hok' dir hdir (execute h lines a (run fs pre)).1 (List.prefix_refl _) q x
  have rest : (mget (run fs pre) (requestAt dir n) = none ∨ mget (run fs pre) (requestAt dir n) = some .dir) → _ := fun hx => by
    have h6 : mget (run fs pre) p = some .dir := by
      rcases s2 _ e he with h3 | ⟨m, -, h3, -, p', h5, h6⟩
      · rcases hx with hx | hx <;> rw [hx] at h3
        · cases h3
        · exact absurd (Option.some.inj h3).symm hd
      · rw [← requestAt_inj h3] at h5
        rw [wants_unique hw h5]
        exact h6
    refine (⟨?_, fun e' he' => ?_⟩ : mget (run (run fs pre) (execute h lines a (run fs pre)).1) p = some .dir ∧
      ∀ e', mget (run (run fs pre) (execute h lines a (run fs pre)).1) (requestAt dir n) = some e' → e' = .dir)
    · rcases hsafe p _ h6 with h7 | ⟨-, h7, -⟩ | ⟨h7, -⟩
      · exact h7
      · exact absurd rfl h7
      · rw [hdm] at h7
        cases h7
    · rcases hx with hx | hx
      · exact hpay _ e' hx he'
      · rcases hsafe _ _ hx with h7 | ⟨-, h7, -⟩ | ⟨h7, -⟩
        · rw [h7] at he'
          exact (Option.some.inj he').symm
        · exact absurd rfl h7
        · rw [hdm] at h7
          cases h7
  cases hx : mget (run fs pre) (requestAt dir n) with
  | none => exact rest (.inl hx)
  | some x =>
    by_cases hxd : x = .dir
    · subst hxd
      exact rest (.inr hx)
    · exact C226_served h ho lines a hdm (run fs pre) hok' dir hdir n p hw (makeable_mono hm s1 s3) x hx hxd hs

/-! ## Where, adding, cleaning -/

theorem joinWith_map_slash (parts : List Str) (hp : ∀ x ∈ parts, '_' ∉ x) :
    (joinWith c!"_" parts).map (fun c => if c = '_' then '/' else c) = joinWith c!"/" parts := by
  have one : ∀ x : Str, '_' ∉ x → x.map (fun c => if c = '_' then '/' else c) = x := by
    intro x hx
    conv_rhs => rw [← List.map_id x]
    refine List.map_congr_left fun c hc => ?_
    rw [if_neg (by rintro rfl; exact hx hc)]
    rfl
  induction parts with
  | nil => rfl
  | cons x xs ih =>
    cases xs with
    | nil => exact one x (hp x List.mem_cons_self)
    | cons y ys =>
      have := ih fun z hz => hp z (List.mem_cons_of_mem _ hz)
      show (x ++ c!"_" ++ joinWith c!"_" (y :: ys)).map _ = x ++ c!"/" ++ joinWith c!"/" (y :: ys)
      rw [List.map_append, List.map_append, one x (hp x List.mem_cons_self), this]
      rfl

theorem join_parts (dir : Path) (parts : List Str) (hne : parts ≠ []) (hc : ∀ x ∈ parts, Component x) :
    join dir (joinWith c!"/" parts) = dir ++ parts := by
  have hh : (joinWith c!"/" parts).head? ≠ some '/' := by
    cases parts with
    | nil => exact absurd rfl hne
    | cons x xs =>
      have h1 := hc x List.mem_cons_self
      cases x with
      | nil => exact absurd rfl h1.filled
      | cons c t =>
        have : (joinWith c!"/" ((c :: t) :: xs)).head? = some c := by cases xs <;> rfl
        rw [this]
        intro he
        exact h1.slash (by rw [Option.some.inj he]; exact List.mem_cons_self)
  unfold join
  rw [if_neg hh, splitChar_join hne fun x hx => (hc x hx).slash]
  clear hh hne
  induction parts generalizing dir with
  | nil => simp
  | cons x xs ih =>
    have h1 := hc x List.mem_cons_self
    rw [List.foldl_cons, ih _ fun y hy => hc y (List.mem_cons_of_mem _ hy)]
    simp [pushPart, h1.filled, h1.dots.1, h1.dots.2]

/-- C226: a request whose parts are names asks for the directory with these names in the cache. -/
theorem C226_asked (dir : Path) (parts : List Str) (hne : parts ≠ []) (hc : ∀ x ∈ parts, Component x ∧ '_' ∉ x) (p : Path) :
    Wants dir (joinWith c!"_" parts ++ c!".pending") p ↔ p = dir ++ parts := by
  have hj := join_parts dir parts hne fun x hx => (hc x hx).1
  constructor
  · rintro ⟨s, h1, h2, h3⟩
    have := List.append_cancel_right h2
    rw [h3, ← this, joinWith_map_slash parts fun x hx => (hc x hx).2, hj]
  · rintro rfl
    refine ⟨joinWith c!"_" parts, ?_, rfl, by rw [joinWith_map_slash parts fun x hx => (hc x hx).2, hj]⟩
    cases parts with
    | nil => exact absurd rfl hne
    | cons x xs =>
      have := (hc x List.mem_cons_self).1.filled
      cases x with
      | nil => exact absurd rfl this
      | cons c t => cases xs <;> simp [joinWith]

/-- C226: if all requests ask for places in the cache, then nothing changes outside of it. -/
theorem C226_inside (h : Host) (ho : Lists h.order) (lines : Str → List Str) (a : Args) (hdm : a.daemon = true) (fs : FS) (hok : Ok fs)
    (dir : Path) (hdir : cacheDir h a.dir = some dir)
    (hin : ∀ n p, (mget fs (requestAt dir n)).isSome → Wants dir n p → Inside n) (pre : List Step)
    (hp : Stops (execute h lines a fs).1 pre) (q : Path) (hq : Apart q dir) : mget (run fs pre) q = mget fs q := by
  refine run_other fs pre fun s hs => ?_
  have hs := hp.subset hs
  have hup : ∀ r : Path, r <+: dir ∨ dir <+: r → r ≠ q := by
    rintro r (h1 | h1) rfl
    · exact hq.1 h1
    · exact hq.2 h1
  have hfirst : ∀ (f : FS) (d : Path), (∀ r, r <+: d → r <+: dir ∨ dir <+: r) → ∀ s ∈ (firstSteps h f d).1, path s ≠ q := by
    intro f d hd s hs
    obtain ⟨r, hr, rfl⟩ := firstSteps_mkdir h f d s hs
    exact hup r (hd r hr)
  have hdir1 : ∀ r, r <+: dir → r <+: dir ∨ dir <+: r := fun r hr => .inl hr
  have hbelow : ∀ t r, r <+: dir ++ t → r <+: dir ∨ dir <+: r := fun t r hr =>
    (List.prefix_or_prefix_of_prefix hr (List.prefix_append dir t))
  rw [execute_steps h lines a fs hdir] at hs
  rcases List.mem_append.mp hs with h1 | h1
  · exact hfirst fs dir hdir1 s h1
  · split at h1
    · rw [daemon_steps] at h1
      rcases List.mem_append.mp h1 with h2 | h2
      · exact hfirst _ _ (hbelow _) s h2
      · split at h2
        · have hok1 := firstSteps_ok hok h dir (List.prefix_refl _)
          have hok2 := firstSteps_ok hok1 h (dir ++ [c!"pending"]) (List.prefix_refl _)
          have hreq : ∀ n ∈ requests h (run (run fs (firstSteps h fs dir).1) (firstSteps h (run fs (firstSteps h fs dir).1) (dir ++ [c!"pending"])).1) dir,
              Inside n := by
            intro n hn
            obtain ⟨h3, p, hw⟩ := (requests_iff ho hok2 dir n).mp hn
            have hpath : ∀ (f : FS) (d : Path), (¬ requestAt dir n <+: d) → mget (run f (firstSteps h f d).1) (requestAt dir n) = mget f (requestAt dir n) := by
              intro f d hnp
              refine run_other f _ fun s hs => ?_
              obtain ⟨q, hq, rfl⟩ := firstSteps_mkdir h f d s hs
              rintro rfl
              exact hnp hq
            rw [hpath, hpath] at h3
            · exact hin n p h3 hw
            · intro hc
              have := hc.length_le
              simp only [requestAt, List.length_append, List.length_cons, List.length_nil] at this
              omega
            · intro hc
              have := hc.length_le
              simp only [requestAt, List.length_append, List.length_cons, List.length_nil] at this
              omega
          generalize run (run fs (firstSteps h fs dir).1) (firstSteps h (run fs (firstSteps h fs dir).1) (dir ++ [c!"pending"])).1 = f at *
          generalize requests h f dir = ns at *
          clear hok1 hok2 hs hp h1
          induction ns generalizing f with
          | nil => cases h2
          | cons n ns ih =>
            rcases List.mem_append.mp h2 with h3 | h3
            · have hwp : ∀ p, Wants dir n p → ∃ t, p = dir ++ t := by
                intro p hw
                obtain ⟨parts, hne, hc, rfl⟩ := hreq n List.mem_cons_self
                exact ⟨parts, (C226_asked dir parts hne hc p).mp hw⟩
              rcases serve_cases h dir f n with hc | ⟨p, e, hw, hc, -⟩
              · obtain ⟨r, rfl, p, hw, hr⟩ := hc s h3
                obtain ⟨t, rfl⟩ := hwp p hw
                exact hup r (hbelow t r hr)
              · rw [hc] at h3
                obtain ⟨t, rfl⟩ := hwp p hw
                rcases List.mem_append.mp h3 with h4 | h4
                · exact hup _ (hbelow t _ (mkdirAll_path _ s h4))
                · rw [List.mem_singleton.mp h4]
                  exact hup _ (.inr ⟨_, rfl⟩)
            · exact ih _ h3 fun m hm => hreq m (List.mem_cons_of_mem _ hm)
        · cases h2
    · cases h1

/-- C226: adding makes the directory of the version, if the family has it, or else of the first package. -/
theorem C226_add (h : Host) (dir : Path) (uris : List Str) (fs : FS) (u : Str) (hu : u ∈ uris) (hm : Makeable h fs (addTarget h dir u)) :
    mget (run fs (addAll h dir fs uris)) (addTarget h dir u) = some .dir := by
  have hmk : ∀ (f : FS) (l : List Str), ∀ s ∈ addAll h dir f l, ∃ q, s = Step.mkdir q := fun f l s hs => by
    obtain ⟨q, hq, -⟩ := addAll_steps h dir l f s hs
    exact ⟨q, hq⟩
  have hmk1 : ∀ (f : FS) (p : Path), ∀ s ∈ (makeAll h f p).1, ∃ q, s = Step.mkdir q := fun f p s hs => by
    obtain ⟨q, -, hq⟩ := cacheMake_steps h f p s hs
    exact ⟨q, hq⟩
  induction uris generalizing fs with
  | nil => cases hu
  | cons v vs ih =>
    show mget (run fs ((makeAll h fs (addTarget h dir v)).1 ++ addAll h dir (run fs (makeAll h fs (addTarget h dir v)).1) vs)) _ = _
    rw [run_append]
    rcases List.mem_cons.mp hu with rfl | hu
    · have h1 := (makeAll_made ((makeAll_iff h fs _).mpr hm)).2 _ (List.prefix_refl _)
      exact (mkdirs_stay (hmk _ _) _).1 _ _ h1
    · refine ih _ hu (makeable_mono hm (fun q hq => ?_) fun q e hq he => ?_)
      · exact (mkdirs_stay (hmk1 _ _) fs).1 q _ hq
      · exact (mkdirs_stay (hmk1 _ _) fs).2 q e hq he

/-- C226: which directory that is. -/
theorem C226_target (h : Host) (dir : Path) (name version : Str) (hn : Component name) (hd : '-' ∉ version) (c : Char) (t : Str)
    (hv : version = c :: t) (hc : isDigit c = true) (hs : '/' ∉ version) :
    ((∃ p ∈ h.find name, ∃ v, p.version = some v ∧ v.asStr = version) → addTarget h dir (name ++ c!"-" ++ version) = dir ++ [name, version]) ∧
    ((¬ ∃ p ∈ h.find name, ∃ v, p.version = some v ∧ v.asStr = version) → addTarget h dir (name ++ c!"-" ++ version) = dir ++ [name]) := by
  have hspec := C122_spec_partial name version hd c t hv hc
  have hcomp : Component version := by
    refine ⟨by rw [hv]; simp, hs, ?_, ?_⟩
    · rintro rfl
      cases hv
      cases hc
    · rintro rfl
      cases hv
      cases hc
  have hvi : ∀ p : Package, Commands.versionIs version p = true ↔ ∃ v, p.version = some v ∧ v.asStr = version := by
    intro p
    unfold Commands.versionIs
    cases p.version <;> simp
  constructor
  · rintro ⟨p, hp, v, h1, h2⟩
    unfold addTarget
    rw [hspec]
    simp only
    cases hf : (h.find name).find? (fun p => Commands.versionIs version p) with
    | none => exact absurd ((hvi p).mpr ⟨v, h1, h2⟩) (by simpa using List.find?_eq_none.mp hf p hp)
    | some x =>
      obtain ⟨w, h3, h4⟩ := (hvi x).mp (List.find?_some hf)
      simp only [h3, Option.map_some, Option.getD_some, h4]
      exact join_two dir hn hcomp
  · intro hno
    unfold addTarget
    rw [hspec]
    simp only
    cases hf : (h.find name).find? (fun p => Commands.versionIs version p) with
    | none => exact join_component dir hn
    | some x => exact absurd ⟨x, List.mem_of_find?_eq_some hf, (hvi x).mp (List.find?_some hf)⟩ hno

/-- C226: which directory that is when only a name is given: that of the first package there is of it. -/
theorem C226_named (h : Host) (dir : Path) (name : Str) (hn : Component name)
    (hd : ∀ a b, name = a ++ '-' :: b → ∀ c t, b = c :: t → isDigit c = false) :
    (h.find name = [] → addTarget h dir name = dir ++ [name]) ∧
    ∀ p l, h.find name = p :: l → (p.version = none → addTarget h dir name = dir ++ [name, c!"unknown"]) ∧
      ∀ v, p.version = some v → Component v.asStr → addTarget h dir name = dir ++ [name, v.asStr] := by
  have hspec : Commands.parseSpec name = (name, none) := by
    unfold Commands.parseSpec
    cases hr : rsplitOnce '-' name with
    | none => rfl
    | some ab =>
      obtain ⟨a, b⟩ := ab
      have he := rsplitOnce_eq hr
      simp only
      rw [if_neg]
      cases b with
      | nil => simp [Commands.startsDigit]
      | cons c t => simp [Commands.startsDigit, hd a _ he c t rfl]
  refine ⟨fun he => ?_, fun p l he => ⟨fun hv => ?_, fun v hv hc => ?_⟩⟩
  · unfold addTarget
    rw [hspec]
    simp only [he, List.find?_nil]
    exact join_component dir hn
  · unfold addTarget
    rw [hspec]
    simp only [he, List.find?_cons, hv, Option.map_none, Option.getD_none]
    exact join_two dir hn ⟨by decide, by decide, by decide, by decide⟩
  · unfold addTarget
    rw [hspec]
    simp only [he, List.find?_cons, hv, Option.map_some, Option.getD_some]
    exact join_two dir hn hc

/-- C226: cleaning removes all empty directories in the cache, and tells how many. -/
theorem C226_clean (h : Host) (ho : Lists h.order) (fs : FS) (hok : Ok fs) (dir : Path) (hs : ∀ x, h.stuck (dir ++ [x]) = false) :
    (∀ x, Spec.Empty fs (dir ++ [x]) → mget (run fs (clean h dir fs).1) (dir ++ [x]) = none) ∧
    ∀ names : List Str, names.Nodup → (∀ x, x ∈ names ↔ Spec.Empty fs (dir ++ [x])) → (clean h dir fs).2 = names.length := by
  obtain ⟨c1, c2⟩ := children_paths ho hok.nodup dir
  obtain ⟨a, b, c⟩ := cleanEach_safe ho _ fs hok c1 c2
  have hdird : ∀ x e, mget fs (dir ++ [x]) = some e → mget fs dir = some .dir := by
    intro x e he
    refine hok.parents (dir ++ [x]) dir ⟨[x], rfl⟩ ?_ (by rw [he]; rfl)
    intro hc
    have := congrArg List.length hc
    simp at this
  have hmem : ∀ x, Spec.Empty fs (dir ++ [x]) → dir ++ [x] ∈ (children h fs dir).map Prod.fst := by
    intro x hx
    exact List.mem_map.mpr ⟨(dir ++ [x], .dir), (children_iff ho hok.nodup dir _).mpr ⟨hdird x _ hx.1, x, rfl, hx.1⟩, rfl⟩
  have hstuck : ∀ q ∈ (children h fs dir).map Prod.fst, h.stuck q = false := by
    intro q hq
    obtain ⟨e, he, rfl⟩ := List.mem_map.mp hq
    obtain ⟨-, x, h1, -⟩ := (children_iff ho hok.nodup dir e).mp he
    rw [h1]
    exact hs x
  refine ⟨fun x hx => b _ (hmem x hx) hx (hs x), fun names hnd hn => ?_⟩
  have h1 := c hstuck
  unfold clean
  rw [h1]
  have hperm : (((children h fs dir).map Prod.fst).filter fun q => (mget fs q).isSome &&
      !(mget (run fs (cleanEach h fs ((children h fs dir).map Prod.fst)).1) q).isSome).Perm (names.map fun x => dir ++ [x]) := by
    refine (List.perm_ext_iff_of_nodup (c2.filter _) (hnd.map fun x y hxy => by simpa using hxy)).mpr fun q => ?_
    rw [List.mem_filter, List.mem_map, List.mem_map]
    constructor
    · rintro ⟨⟨e, he, rfl⟩, h3⟩
      obtain ⟨-, x, h4, h5⟩ := (children_iff ho hok.nodup dir e).mp he
      rcases a _ (List.prefix_refl _) e.1 with h6 | ⟨-, -, h6, -⟩
      · rw [h6] at h3
        cases hm : mget fs e.1 <;> simp [hm] at h3
      · exact ⟨x, (hn x).mpr (by rw [← h4]; exact h6), h4.symm⟩
    · rintro ⟨x, hx, rfl⟩
      have hx' := (hn x).mp hx
      refine ⟨List.mem_map.mp (hmem x hx'), ?_⟩
      rw [b _ (hmem x hx') hx' (hs x), hx'.1]
      rfl
  rw [hperm.length_eq, List.length_map]

/-! ## The table -/

theorem subdirs_iff {h : Host} (ho : Lists h.order) {fs : FS} (hok : Ok fs) (p q : Path) :
    q ∈ subdirs h fs p ↔ ∃ x, q = p ++ [x] ∧ mget fs (p ++ [x]) = some .dir := by
  unfold subdirs
  rw [List.mem_map]
  constructor
  · rintro ⟨e, he, rfl⟩
    obtain ⟨h1, h2⟩ := List.mem_filter.mp he
    obtain ⟨-, x, h3, h4⟩ := (children_iff ho hok.nodup p e).mp h1
    exact ⟨x, h3, by rw [h4, beq_iff_eq.mp h2]⟩
  · rintro ⟨x, rfl, hx⟩
    refine ⟨(p ++ [x], .dir), List.mem_filter.mpr ⟨(children_iff ho hok.nodup p _).mpr ⟨?_, x, rfl, hx⟩, rfl⟩, rfl⟩
    refine hok.parents (p ++ [x]) p ⟨[x], rfl⟩ ?_ (by rw [hx]; rfl)
    intro hc
    have := congrArg List.length hc
    simp at this

/-- C226: the entries of the table are what is cached. -/
theorem C226_table (h : Host) (ho : Lists h.order) (fs : FS) (hok : Ok fs) (dir : Path) (r : Row) :
    r ∈ scan h fs dir ↔ Cached fs dir r := by
  unfold scan Cached
  simp only [List.mem_flatMap]
  constructor
  · rintro ⟨k, hk, v, hv, hr⟩
    obtain ⟨kn, rfl, hk'⟩ := (subdirs_iff ho hok _ _).mp hk
    obtain ⟨vn, rfl, hv'⟩ := (subdirs_iff ho hok _ _).mp hv
    rw [nameOf_snoc, nameOf_snoc] at hr
    refine ⟨kn, vn, hk', by simpa using hv', ?_⟩
    split at hr
    · rename_i he
      rw [List.mem_singleton.mp hr]
      refine ⟨rfl, .inl ⟨fun x hx => ?_, by simp, rfl⟩⟩
      have hm : (dir ++ [kn]) ++ [vn] ++ [x] ∈ subdirs h fs (dir ++ [kn] ++ [vn]) := (subdirs_iff ho hok _ _).mpr ⟨x, rfl, by simpa using hx⟩
      rw [List.isEmpty_iff.mp he] at hm
      cases hm
    · obtain ⟨y, hy, rfl⟩ := List.mem_map.mp hr
      obtain ⟨x, rfl, hx⟩ := (subdirs_iff ho hok _ _).mp hy
      exact ⟨rfl, .inr ⟨x, by simpa using hx, by simp, by rw [nameOf_snoc]⟩⟩
  · rintro ⟨k, v, hk, hv, hp, hr⟩
    refine ⟨dir ++ [k], (subdirs_iff ho hok _ _).mpr ⟨k, rfl, hk⟩, dir ++ [k] ++ [v], (subdirs_iff ho hok _ _).mpr ⟨v, rfl, by simpa using hv⟩, ?_⟩
    rw [nameOf_snoc, nameOf_snoc]
    obtain ⟨pk, u, pa⟩ := r
    simp only at hp hr
    subst hp
    rcases hr with ⟨h1, rfl, rfl⟩ | ⟨x, h1, rfl, rfl⟩
    · rw [if_pos]
      · simp
      · rw [List.isEmpty_iff]
        refine List.eq_nil_iff_forall_not_mem.mpr fun q hq => ?_
        obtain ⟨x, -, hx⟩ := (subdirs_iff ho hok _ _).mp hq
        exact h1 x (by simpa using hx)
    · have hm : (dir ++ [pk]) ++ [v] ++ [x] ∈ subdirs h fs (dir ++ [pk] ++ [v]) := (subdirs_iff ho hok _ _).mpr ⟨x, rfl, by simpa using h1⟩
      rw [if_neg]
      · exact List.mem_map.mpr ⟨_, hm, by rw [nameOf_snoc]; simp⟩
      · intro he
        rw [List.isEmpty_iff.mp he] at hm
        cases hm

theorem cell_shows (r : Row) (column value : Str) : Shows r column value ↔ value = cell r column := by
  unfold Shows cell shownPath
  rw [List.flatMap]
  by_cases h1 : column = c!"status"
  · subst h1
    simp
  by_cases h2 : column = c!"package"
  · subst h2
    simp
  by_cases h3 : column = c!"variant_uri"
  · subst h3
    simp
  by_cases h4 : column = c!"cache_path"
  · subst h4
    simp
  · simp [h1, h2, h3, h4]

theorem pad_written {value t : Str} (h : truncate value = .ok t) : Written value (pad t) := by
  refine ⟨t, ?_, 15 - t.length, rfl, by omega⟩
  unfold truncate at h
  split at h
  · rename_i hl
    exact .inl ⟨hl, (Outcome.ok.inj h).symm⟩
  · rename_i hl
    split at h
    · rename_i p hp
      obtain ⟨⟨q, hq⟩, h2⟩ := UtilLemmas.prefixBytes_spec _ _ _ hp
      exact .inr ⟨by omega, p, q, hq.symm, h2, (Outcome.ok.inj h).symm⟩
    · cases h

theorem rowLine_spec (r : Row) : ∀ (columns l : List Str), rowLine r columns = .ok l →
    List.Forall₂ (fun c out => ∃ value, Shows r c value ∧ Written value out) columns l := by
  intro columns
  induction columns with
  | nil =>
    intro l h
    cases h
    exact .nil
  | cons c cs ih =>
    intro l h
    unfold rowLine at h
    split at h
    · cases h
    · cases h
    · rename_i t ht
      split at h
      · rename_i l' hl
        cases h
        exact .cons ⟨_, (cell_shows r c _).mpr rfl, pad_written ht⟩ (ih _ hl)
      · rename_i o hno
        exact absurd h (hno l)

/-- C226: the table has a line for each entry, in order; each has a value for each column, in order, with blanks between
them. -/
theorem C226_printed (columns : List Str) (rows : List Row) (ls : List Str) (h : rowLines columns rows = .ok ls) :
    List.Forall₂ (fun r line => ∃ cells, line = joinWith c!" " cells ∧
      List.Forall₂ (fun c out => ∃ value, Shows r c value ∧ Written value out) columns cells) rows ls := by
  induction rows generalizing ls with
  | nil =>
    cases h
    exact .nil
  | cons r rs ih =>
    unfold rowLines at h
    split at h
    · cases h
    · cases h
    · rename_i l hl
      split at h
      · rename_i ls' hls
        cases h
        exact .cons ⟨l, rfl, rowLine_spec r _ _ hl⟩ (ih _ hls)
      · rename_i o hno
        exact absurd h (hno ls)

/-- C226: the table is printed if no value that is shown and longer than fifteen bytes has a character of more than one
byte. -/
theorem C226_prints (columns : List Str) (rows : List Row)
    (hs : ∀ r ∈ rows, ∀ c ∈ columns, ∀ value, Shows r c value → byteLen value ≤ 15 ∨ ∀ x ∈ value, x.utf8Size = 1) :
    ∃ ls, rowLines columns rows = .ok ls := by
  have hcell : ∀ value : Str, (byteLen value ≤ 15 ∨ ∀ x ∈ value, x.utf8Size = 1) → ∃ t, truncate value = .ok t := by
    intro value hv
    unfold truncate
    split
    · exact ⟨_, rfl⟩
    · rename_i hl
      rcases hv with hv | hv
      · exact absurd hv hl
      · obtain ⟨p, hp⟩ := UtilLemmas.prefixBytes_ascii 12 value hv (by omega)
        rw [hp]
        exact ⟨_, rfl⟩
  have hrow : ∀ (r : Row) (cs : List Str), (∀ c ∈ cs, ∀ value, Shows r c value → byteLen value ≤ 15 ∨ ∀ x ∈ value, x.utf8Size = 1) →
      ∃ l, rowLine r cs = .ok l := by
    intro r cs
    induction cs with
    | nil => exact fun _ => ⟨_, rfl⟩
    | cons c cs ih =>
      intro hh
      obtain ⟨t, ht⟩ := hcell (cell r c) (hh c List.mem_cons_self _ ((cell_shows r c _).mpr rfl))
      obtain ⟨l, hl⟩ := ih fun d hd => hh d (List.mem_cons_of_mem _ hd)
      unfold rowLine
      rw [ht]
      simp only [hl]
      exact ⟨_, rfl⟩
  induction rows with
  | nil => exact ⟨_, rfl⟩
  | cons r rs ih =>
    obtain ⟨l, hl⟩ := hrow r columns (hs r List.mem_cons_self)
    obtain ⟨ls, hls⟩ := ih fun r' hr => hs r' (List.mem_cons_of_mem _ hr)
    unfold rowLines
    rw [hl]
    simp only [hls]
    exact ⟨_, rfl⟩

example : rowLines [c!"package", c!"variant_uri"] [⟨c!"maya", c!"maya-2024.0.1-longer", []⟩] =
    .ok [c!"maya            maya-2024.0...."] := by decide

/-- C226: the log is shown from its end: all of it, or the last fifty lines; it is no error that there is none, but it is one
that it cannot be read. -/
theorem C226_log (dir : Path) (fs : FS) (lines : Str → List Str) :
    (∀ c, mget fs (dir ++ [c!"cache.log"]) = some (.file c) →
      ∃ l, logLines dir fs lines = .ok (some l) ∧ l <:+ lines c ∧ l.length = min 50 (lines c).length) ∧
    (mget fs (dir ++ [c!"cache.log"]) = none → logLines dir fs lines = .ok none) ∧
    (mget fs (dir ++ [c!"cache.log"]) = some .dir → logLines dir fs lines = .err) := by
  refine ⟨fun c hc => ?_, fun hc => ?_, fun hc => ?_⟩
  · unfold logLines
    rw [hc]
    refine ⟨_, rfl, List.drop_suffix _ _, ?_⟩
    rw [List.length_drop]
    split <;> omega
  · unfold logLines
    rw [hc]
  · unfold logLines
    rw [hc]

/-- C226: the cache is the directory that is given, or else the first that is configured, or else the one in the home directory. -/
theorem C226_where (h : Host) (dir : Option Str) :
    (∀ d, dir = some d → d.head? = some '/' → cacheDir h dir = some (join [] d)) ∧
    (∀ c l, dir = none → h.configured = c :: l → c.head? = some '/' → cacheDir h dir = some (join [] c)) ∧
    (∀ home, dir = none → h.configured = [] → h.home = some home → home.head? = some '/' →
      cacheDir h dir = some (join [] home ++ [c!".rez", c!"cache", c!"packages"])) ∧
    (dir = none → h.configured = [] → h.home = none → cacheDir h dir = none) := by
  have hj : ∀ (p : Path) (s : Str), s.head? = some '/' → join p s = join [] s := by
    intro p s hs
    unfold join
    rw [if_pos hs, if_pos hs]
  have hx : ∀ d : Str, d.head? = some '/' → expandPath h d = join [] d := by
    intro d hd
    cases d with
    | nil => cases hd
    | cons x t =>
      have : x = '/' := by simpa using hd
      subst this
      unfold expandPath
      cases h.home <;> simp [hj _ ('/' :: t) rfl, List.isPrefixOf]
  refine ⟨?_, ?_, ?_, ?_⟩
  · rintro d rfl hd
    exact congrArg some (hx d hd)
  · rintro c l rfl hc hd
    unfold cacheDir
    rw [hc]
    cases c with
    | nil => cases hd
    | cons x t => exact congrArg some (hx _ hd)
  · rintro home rfl h1 h2 hd
    unfold cacheDir
    rw [h1, h2]
    simp [hj h.cwd home hd]
  · rintro rfl h1 h2
    unfold cacheDir
    rw [h1, h2]
    rfl

theorem pushParts (p : Path) (l : List Str) (h : ∀ s ∈ l, s ≠ [] ∧ s ≠ c!"." ∧ s ≠ c!"..") : l.foldl pushPart p = p ++ l := by
  induction l generalizing p with
  | nil => simp
  | cons s l ih =>
    obtain ⟨h1, h2, h3⟩ := h s List.mem_cons_self
    rw [List.foldl_cons, ih _ fun t ht => h t (List.mem_cons_of_mem _ ht)]
    unfold pushPart
    rw [if_neg h1, if_neg h2, if_neg h3]
    simp

/-- C226: a directory given with a leading `~` is in the home directory, a relative one in the working directory. -/
theorem C226_home (h : Host) (parts : List Str) (hne : parts ≠ [])
    (hp : ∀ s ∈ parts, s ≠ [] ∧ s ≠ c!"." ∧ s ≠ c!".." ∧ '/' ∉ s) :
    (∀ home, h.home = some home → home.head? = some '/' →
      cacheDir h (some c!"~") = some (join [] home) ∧
      cacheDir h (some (c!"~/" ++ joinWith c!"/" parts)) = some (join [] home ++ parts)) ∧
    ((∀ s ∈ parts, '~' ∉ s) → cacheDir h (some (joinWith c!"/" parts)) = some (h.cwd ++ parts)) := by
  have hs : splitChar '/' (joinWith c!"/" parts) = parts := splitChar_join hne fun p hm => (hp p hm).2.2.2
  obtain ⟨s, l, rfl⟩ : ∃ s l, parts = s :: l := by
    cases parts with
    | nil => exact absurd rfl hne
    | cons s l => exact ⟨s, l, rfl⟩
  obtain ⟨c, t, hc⟩ : ∃ c t, s = c :: t := by
    cases hx : s with
    | nil => exact absurd hx (hp s List.mem_cons_self).1
    | cons c t => exact ⟨c, t, rfl⟩
  have hhead : (joinWith c!"/" (s :: l)).head? = some c := by
    subst hc
    cases l <;> rfl
  have hns : c ≠ '/' := by
    rintro rfl
    exact (hp s List.mem_cons_self).2.2.2 (by rw [hc]; exact List.mem_cons_self)
  have hjoin : ∀ p : Path, join p (joinWith c!"/" (s :: l)) = p ++ s :: l := by
    intro p
    unfold join
    rw [hs, hhead, if_neg (by simpa using hns)]
    exact pushParts _ _ fun x hx => ⟨(hp x hx).1, (hp x hx).2.1, (hp x hx).2.2.1⟩
  constructor
  · intro home hh hd
    have hj : join h.cwd home = join [] home := by
      unfold join
      rw [if_pos hd, if_pos hd]
    constructor
    · unfold cacheDir expandPath
      rw [hh]
      simp [hj]
    · unfold cacheDir expandPath
      rw [hh]
      have h1 : ¬ (c!"~/" ++ joinWith c!"/" (s :: l)) = c!"~" := by simp
      have h2 : (c!"~/").isPrefixOf (c!"~/" ++ joinWith c!"/" (s :: l)) = true := by simp
      have h3 : (c!"~/" ++ joinWith c!"/" (s :: l)).drop 2 = joinWith c!"/" (s :: l) := rfl
      simp only [h1, h2, h3, hj, hjoin, Bool.true_or, if_true, if_false]
  · intro ht
    have hct : c ≠ '~' := by
      rintro rfl
      exact ht s List.mem_cons_self (by rw [hc]; exact List.mem_cons_self)
    have hcons : ∃ u, joinWith c!"/" (s :: l) = c :: u := by
      cases hx : joinWith c!"/" (s :: l) with
      | nil => rw [hx] at hhead; cases hhead
      | cons a u =>
        rw [hx] at hhead
        obtain rfl : a = c := by simpa using hhead
        exact ⟨u, rfl⟩
    have e : expandPath h (joinWith c!"/" (s :: l)) = join h.cwd (joinWith c!"/" (s :: l)) := by
      obtain ⟨u, hu⟩ := hcons
      rw [hu]
      unfold expandPath
      cases h.home <;> simp [List.isPrefixOf, hct, Ne.symm hct]
    show some (expandPath h _) = _
    rw [e, hjoin]

example : cacheDir ⟨id, fun _ => false, fun _ => false, [c!"w"], some c!"/h", [], fun _ => []⟩ (some c!"~/a/b") =
    some [c!"h", c!"a", c!"b"] := by decide

/-! ## Refutations -/

/-- A machine for the examples. -/
def cacheHost : Host := ⟨id, fun _ => false, fun _ => false, [], some c!"/h", [], fun _ => []⟩

/-- A name without a version, and a package of it. -/
example : addTarget { cacheHost with find := fun _ => [⟨c!"tool", none, [], [], [], none⟩] } [c!"c"] c!"tool" = [c!"c", c!"tool", c!"unknown"] ∧
    addTarget cacheHost [c!"c"] c!"my-tool" = [c!"c", c!"my-tool"] := by decide

/-- C226: it is an error when there is no place for the cache, or when it is not there and cannot be made. -/
theorem C226_blocked (h : Host) (lines : Str → List Str) (a : Args) (fs : FS) :
    (cacheDir h a.dir = none → execute h lines a fs = ([], .err)) ∧
    ∀ dir, cacheDir h a.dir = some dir → mget fs dir = none → ¬ Makeable h fs dir → (execute h lines a fs).2 = .err := by
  refine ⟨fun hd => ?_, fun dir hd hn hm => ?_⟩
  · unfold execute
    rw [hd]
  · have h1 : (makeAll h fs dir).2 = false := by
      cases hx : (makeAll h fs dir).2 with
      | false => rfl
      | true => exact absurd ((makeAll_iff h fs dir).mp hx) hm
    unfold execute
    rw [hd]
    simp [hn, h1]

example : (execute { cacheHost with denied := fun _ => true } (fun _ => []) ⟨some c!"/c", [], [], false, false, true, []⟩ []).2 = .err := by
  rfl

/-- The cache is in `/c`. -/
def cacheArgs (daemon : Bool) : Args := ⟨some c!"/c", [], [], false, false, daemon, [c!"variant_uri"]⟩

/-- A cache with a request of this name. -/
def cacheDisk (n : Str) : FS := [([], .dir), ([c!"c"], .dir), ([c!"c", c!"pending"], .dir), ([c!"c", c!"pending", n], .file [])]

theorem cacheDisk_ok (n : Str) : Ok (cacheDisk n) := by
  refine ⟨by simp [cacheDisk, mkeys], fun p q hq hne hs => ?_⟩
  have hp : p = [] ∨ p = [c!"c"] ∨ p = [c!"c", c!"pending"] ∨ p = [c!"c", c!"pending", n] := by
    obtain ⟨e, he⟩ := Option.isSome_iff_exists.mp hs
    have := mget_some_mem he
    simp [cacheDisk] at this
    tauto
  obtain ⟨t, rfl⟩ := hq
  have ht : t ≠ [] := by rintro rfl; simp at hne
  have hqs : q = [] ∨ q = [c!"c"] ∨ q = [c!"c", c!"pending"] := by
    rcases q with _ | ⟨a, _ | ⟨b, _ | ⟨c, q⟩⟩⟩
    · exact .inl rfl
    · rcases hp with h | h | h | h <;> simp_all
    · rcases hp with h | h | h | h <;> simp_all
    · rcases hp with h | h | h | h <;> simp_all
  rcases hqs with rfl | rfl | rfl <;> simp [cacheDisk, mget]

/-- The hypotheses of the theorems about requests are met. -/
example : Lists cacheHost.order ∧ Ok (cacheDisk c!"tool_1.0.pending") ∧ cacheDir cacheHost (cacheArgs true).dir = some [c!"c"] ∧
    Wants [c!"c"] c!"tool_1.0.pending" [c!"c", c!"tool", c!"1.0"] ∧ Inside c!"tool_1.0.pending" ∧
    mget (cacheDisk c!"tool_1.0.pending") (requestAt [c!"c"] c!"tool_1.0.pending") = some (.file []) ∧
    (execute cacheHost (fun _ => []) (cacheArgs true) (cacheDisk c!"tool_1.0.pending")).2 = .ok (.served 1 0) := by
  refine ⟨fun l => List.Perm.refl _, cacheDisk_ok _, by decide, ⟨c!"tool_1.0", by decide, rfl, by decide⟩,
    ⟨[c!"tool", c!"1.0"], by simp, ?_, rfl⟩, by decide, by rfl⟩
  intro x hx
  simp at hx
  rcases hx with rfl | rfl
  · exact ⟨⟨by decide, by decide, by decide⟩, by decide⟩
  · exact ⟨⟨by decide, by decide, by decide⟩, by decide⟩

/-- C226 is false of names that lead up, and of names that begin with an underscore: the directory is made outside of the cache. -/
theorem C226_outside_false :
    mget (run (cacheDisk c!".._x.pending") (execute cacheHost (fun _ => []) (cacheArgs true) (cacheDisk c!".._x.pending")).1) [c!"x"] = some .dir ∧
    mget (run (cacheDisk c!"_etc_x.pending") (execute cacheHost (fun _ => []) (cacheArgs true) (cacheDisk c!"_etc_x.pending")).1) [c!"etc", c!"x"] =
      some .dir := by decide +kernel

/-- C226 is false of names with underscores: a request for `my_tool` makes the directory `tool` in `my`, which is then listed as
the version `tool` of the package `my`. -/
theorem C226_underscore_false : Wants [c!"c"] c!"my_tool.pending" [c!"c", c!"my", c!"tool"] ∧
    (scan cacheHost (run (cacheDisk c!"my_tool.pending") (execute cacheHost (fun _ => []) (cacheArgs true) (cacheDisk c!"my_tool.pending")).1) [c!"c"]).map
      (fun r => r.uri) = [c!"my-tool"] :=
  ⟨⟨c!"my_tool", by decide, rfl, by decide⟩, by decide +kernel⟩

/-- C226: nothing is ever removed by `--remove-variants`, and nothing is found. -/
theorem C226_remove_false (h : Host) (lines : Str → List Str) (a : Args) (fs : FS) (dir : Path) (hdir : cacheDir h a.dir = some dir)
    (hd : mget fs dir = some .dir) (hdm : a.daemon = false) (ha : a.add = []) (hr : a.remove ≠ []) :
    execute h lines a fs = ([], .ok (.removed (a.remove.map fun _ => false))) := by
  unfold execute
  rw [hdir]
  cases hx : a.remove with
  | nil => exact absurd hx hr
  | cons u us => simp [hd, hdm, ha]

/-- C226 is false of the queue: cleaning removes the directory of the requests if there are none. -/
theorem C226_queue_false : mget (run [([], .dir), ([c!"c"], .dir), ([c!"c", c!"pending"], .dir)]
    (clean cacheHost [c!"c"] [([], .dir), ([c!"c"], .dir), ([c!"c", c!"pending"], .dir)]).1) [c!"c", c!"pending"] = none := by decide

/-- C226: a package with a long name that is not plain makes the table panic. -/
theorem C226_panic_false : (execute cacheHost (fun _ => []) (cacheArgs false)
    [([], .dir), ([c!"c"], .dir), ([c!"c", c!"aééééééé"], .dir), ([c!"c", c!"aééééééé", c!"1.0.0"], .dir)]).2 = .panic := rfl

end Rez.Props
