import Verif.Spec.PackageOrder
import Verif.Props.Version
import Verif.Props.Resolver
/-!
# C53–C55, C98: package orderers
-/
namespace Rez.Props
open Rez Rez.Spec Rez.PackageOrder

/-! ## A standard library that meets the assumptions -/

/-- Insertion sort, maps iterated in reverse. -/
def demoSorting : Sorting where
  sort := fun c l => .ok (sortBy c l)
  groups := List.reverse

theorem demoSorting_ok : SortingOk demoSorting := by
  refine ⟨?_, ?_, ?_, fun l => List.reverse_perm l⟩
  · intro c l r h
    cases h
    exact (demoEnv_ok true []).sort c l
  · intro c l h
    cases h
  · intro c l h
    exact ⟨_, rfl, demoEnv_sortOk true [] c l h.1 h.2⟩

/-! ## Permutations -/

theorem wrap_ok {r : Outcome (List Package)} {x : Option (List Package)} (h : wrap r = .ok x) :
    ∃ l, r = .ok l ∧ x = some l := by
  cases r with
  | ok l => exact ⟨l, rfl, by cases h; rfl⟩
  | err => cases h
  | panic => cases h

theorem append_ok {a b : Outcome (List Package)} {l : List Package} (h : append a b = .ok l) :
    ∃ x y, a = .ok x ∧ b = .ok y ∧ l = x ++ y := by
  cases a with
  | ok x =>
    cases b with
    | ok y => exact ⟨x, y, rfl, rfl, by cases h; rfl⟩
    | err => cases h
    | panic => cases h
  | err => cases h
  | panic => cases h

theorem sortSplit_perm {s : Sorting} (hs : SortingOk s) {l r : List Package} (h : sortSplit s l = .ok r) : r.Perm l := by
  unfold sortSplit at h
  split at h
  · cases h
  · exact hs.perm _ _ _ h

theorem mem_families (ps : List Package) (f : Str) : f ∈ families ps ↔ ∃ p ∈ ps, p.name = f := by
  induction ps with
  | nil => simp [families]
  | cons p ps ih =>
    unfold families
    simp only
    split
    · rename_i hm
      rw [ih]
      constructor
      · rintro ⟨q, hq, h⟩
        exact ⟨q, List.mem_cons_of_mem _ hq, h⟩
      · rintro ⟨q, hq, h⟩
        rcases List.mem_cons.mp hq with rfl | hq
        · rw [← h]; exact ih.mp (h ▸ hm) |>.imp fun a ha => ⟨ha.1, by rw [ha.2, h]⟩
        · exact ⟨q, hq, h⟩
    · rw [List.mem_cons, ih]
      constructor
      · rintro (rfl | ⟨q, hq, h⟩)
        · exact ⟨p, List.mem_cons_self, rfl⟩
        · exact ⟨q, List.mem_cons_of_mem _ hq, h⟩
      · rintro ⟨q, hq, h⟩
        rcases List.mem_cons.mp hq with rfl | hq
        · exact Or.inl h.symm
        · exact Or.inr ⟨q, hq, h⟩

theorem nodup_families (ps : List Package) : (families ps).Nodup := by
  induction ps with
  | nil => exact List.nodup_nil
  | cons p ps ih =>
    unfold families
    simp only
    split
    · exact ih
    · rename_i h
      exact List.nodup_cons.mpr ⟨h, ih⟩

/-- What `collect` returns, family by family. -/
theorem collect_ok {f : Str → Outcome (List Package)} {fams : List Str} {l : List Package}
    (h : collect f fams = .ok l) :
    ∃ g : Str → List Package, (∀ fam ∈ fams, f fam = .ok (g fam)) ∧ l = fams.flatMap g := by
  induction fams generalizing l with
  | nil =>
    cases h
    exact ⟨fun _ => [], by simp, rfl⟩
  | cons a fams ih =>
    obtain ⟨x, y, hx, hy, rfl⟩ := append_ok h
    obtain ⟨g, hg, rfl⟩ := ih hy
    refine ⟨fun fam => if fam = a then x else g fam, ?_, ?_⟩
    · intro fam hm
      simp only
      split
      · rename_i e; rw [e]; exact hx
      · rename_i e
        rcases List.mem_cons.mp hm with e' | hm
        · exact absurd e' e
        · exact hg fam hm
    · rw [List.flatMap_cons, if_pos rfl]
      by_cases ha : a ∈ fams
      · congr 1
        have hx' : f a = .ok (g a) := hg a ha
        have hxa : x = g a := by rw [hx] at hx'; cases hx'; rfl
        apply List.flatMap_congr
        intro fam _
        split
        · rename_i e; rw [e, hxa]
        · rfl
      · congr 1
        apply List.flatMap_congr
        intro fam hm
        rw [if_neg (fun e : fam = a => ha (e ▸ hm))]

theorem perm_groups (fams : List Str) (ps : List Package) (hn : fams.Nodup) (hc : ∀ p ∈ ps, p.name ∈ fams) :
    (fams.flatMap (group ps)).Perm ps := by
  induction fams generalizing ps with
  | nil =>
    cases ps with
    | nil => exact .refl _
    | cons p _ => exact absurd (hc p List.mem_cons_self) (by simp)
  | cons a fams ih =>
    rw [List.flatMap_cons]
    have hn' := List.nodup_cons.mp hn
    have hrest := ih (ps.filter fun p => !(p.name == a)) hn'.2 (by
      intro p hp
      have := List.mem_filter.mp hp
      rcases List.mem_cons.mp (hc p this.1) with e | e
      · simp [e] at this
      · exact e)
    have heq : fams.flatMap (group ps) = fams.flatMap (group (ps.filter fun p => !(p.name == a))) := by
      apply List.flatMap_congr
      intro fam hm
      unfold group
      rw [List.filter_filter]
      apply List.filter_congr
      intro p _
      by_cases e : p.name = fam
      · have : p.name ≠ a := fun h => hn'.1 (by rw [← h, e]; exact hm)
        simp [e]
        intro h
        exact this (e.trans h)
      · simp [e]
    rw [heq]
    refine (List.Perm.append_left _ hrest).trans ?_
    exact List.filter_append_perm (fun p : Package => p.name == a) ps

theorem flatMap_perm_congr {fams : List Str} {f g : Str → List Package} (h : ∀ fam ∈ fams, (f fam).Perm (g fam)) :
    (fams.flatMap f).Perm (fams.flatMap g) := by
  induction fams with
  | nil => exact .refl _
  | cons a fams ih =>
    rw [List.flatMap_cons, List.flatMap_cons]
    exact (h a List.mem_cons_self).append (ih fun fam hm => h fam (List.mem_cons_of_mem _ hm))

theorem orElse_perm {g l : List Package} {r : Option (Outcome (Option (List Package)))}
    (hr : ∀ x l, r = some x → x = .ok (some l) → l.Perm g) (h : orElse g r = .ok l) : l.Perm g := by
  unfold orElse at h
  split at h <;> cases h
  · exact hr _ _ rfl rfl
  · exact .refl _
  · exact .refl _

mutual
theorem reorder_perm {s : Sorting} (hs : SortingOk s) :
    ∀ (o : Order) (ps l : List Package), reorder s o ps = .ok (some l) → l.Perm ps
  | .null _, ps, l, h => by simp [reorder] at h
  | .sorted d _, ps, l, h => by
    rw [reorder] at h
    obtain ⟨m, hm, e⟩ := wrap_ok h
    cases e
    exact hs.perm _ _ _ hm
  | .split first _, ps, l, h => by
    rw [reorder] at h
    obtain ⟨m, hm, e⟩ := wrap_ok h
    cases e
    obtain ⟨x, y, hx, hy, rfl⟩ := append_ok hm
    exact ((sortSplit_perm hs hx).append (sortSplit_perm hs hy)).trans (List.filter_append_perm _ _)
  | .perFamily d o, ps, l, h => by
    rw [reorder] at h
    obtain ⟨m, hm, e⟩ := wrap_ok h
    cases e
    obtain ⟨g, hg, rfl⟩ := collect_ok hm
    have hp := hs.groups (families ps)
    refine (flatMap_perm_congr (g := group ps) ?_).trans (perm_groups _ ps (hp.nodup_iff.mpr (nodup_families ps)) ?_)
    · intro fam hf
      refine orElse_perm ?_ (hg fam hf)
      intro x l' hx hl
      cases hd : reorderDict s d fam (group ps fam) with
      | some y =>
        rw [hd] at hx
        cases hx
        exact reorderDict_perm hs d fam _ _ (hd.trans (by rw [hl]))
      | none =>
        rw [hd, Option.none_or] at hx
        exact reorderDefault_perm hs o _ _ (hx.trans (by rw [hl]))
    · intro p hp'
      exact hp.mem_iff.mpr ((mem_families ps p.name).mpr ⟨p, hp', rfl⟩)
  | .timestamp t _ _, ps, l, h => by
    rw [reorder] at h
    obtain ⟨m, hm, e⟩ := wrap_ok h
    cases e
    exact hs.perm _ _ _ hm
theorem reorderDict_perm {s : Sorting} (hs : SortingOk s) :
    ∀ (d : Dict) (fam : Str) (ps l : List Package), reorderDict s d fam ps = some (.ok (some l)) → l.Perm ps
  | .nil, fam, ps, l, h => by simp [reorderDict] at h
  | .cons f o rest, fam, ps, l, h => by
    rw [reorderDict] at h
    split at h
    · exact reorder_perm hs o ps l (Option.some.inj h)
    · exact reorderDict_perm hs rest fam ps l h
theorem reorderDefault_perm {s : Sorting} (hs : SortingOk s) :
    ∀ (d : Default) (ps l : List Package), reorderDefault s d ps = some (.ok (some l)) → l.Perm ps
  | .none, ps, l, h => by simp [reorderDefault] at h
  | .some o, ps, l, h => reorder_perm hs o ps l (by rw [reorderDefault] at h; exact Option.some.inj h)
end

/-- C53: whatever list an orderer returns holds exactly the packages it was given, for every orderer (nested
per-family orderers included), every list and every order of iteration. -/
theorem C53_permutation {s : Sorting} (hs : SortingOk s) (o : Order) (ps l : List Package)
    (h : reorder s o ps = .ok (some l)) : l.Perm ps := reorder_perm hs o ps l h

/-! ## No panic -/

theorem comparable_sub {ps qs : List Package} (h : Comparable ps) (hsub : ∀ q ∈ qs, q ∈ ps) : Comparable qs :=
  fun p hp q hq r hr => h p (hsub p hp) q (hsub q hq) r (hsub r hr)

theorem sortedCmp_consistent (d : Bool) {ps : List Package} (h : Comparable ps) : Consistent (sortedCmp d) ps := by
  constructor
  · intro x _ y _
    unfold sortedCmp
    cases x.version <;> cases y.version <;> try rfl
    cases d
    · exact C01_compare_swap _ _
    · exact C01_compare_swap _ _
  · intro x hx y hy z hz
    unfold sortedCmp
    cases hxv : x.version <;> cases hyv : y.version <;> cases hzv : z.version <;> simp
    cases d
    · simp only [Bool.false_eq_true, if_false]
      exact h x hx y hy z hz _ _ _ hxv hyv hzv
    · simp only [if_true]
      intro h1 h2
      exact h z hz y hy x hx _ _ _ hzv hyv hxv h2 h1

theorem splitCmp_consistent {ps : List Package} (h : Comparable ps) (hv : ∀ p ∈ ps, p.version ≠ none) :
    Consistent splitCmp ps := by
  constructor
  · intro x hx y hy
    unfold splitCmp
    cases hxv : x.version with
    | none => exact absurd hxv (hv x hx)
    | some a =>
      cases hyv : y.version with
      | none => exact absurd hyv (hv y hy)
      | some b => exact C01_compare_swap _ _
  · intro x hx y hy z hz
    unfold splitCmp
    cases hxv : x.version with
    | none => exact absurd hxv (hv x hx)
    | some a =>
      cases hyv : y.version with
      | none => exact absurd hyv (hv y hy)
      | some b =>
        cases hzv : z.version with
        | none => exact absurd hzv (hv z hz)
        | some c => exact h x hx y hy z hz _ _ _ hxv hyv hzv

theorem splitCmp_consistent_one (p : Package) : Consistent splitCmp [p] := by
  have : splitCmp p p = .eq := by
    unfold splitCmp
    cases p.version with
    | none => rfl
    | some v => exact C01_compare_refl v
  constructor
  · intro x hx y hy
    rw [List.mem_singleton] at hx hy
    subst hx; subst hy
    rw [this]; rfl
  · intro x hx y hy z hz
    rw [List.mem_singleton] at hx hy hz
    subst hx; subst hy; subst hz
    exact fun h _ => h

theorem timestampCmp_spec (t : Int) (a b : Package) : timestampCmp t a b ≠ .gt ↔
    (releaseTime b ≤ t → releaseTime a ≤ t) ∧
      ((releaseTime a ≤ t ↔ releaseTime b ≤ t) → releaseTime b ≤ releaseTime a) := by
  unfold timestampCmp
  simp only
  change (if releaseTime a ≤ t ∧ ¬ releaseTime b ≤ t then Ordering.lt
    else if ¬ releaseTime a ≤ t ∧ releaseTime b ≤ t then .gt else compare (releaseTime b) (releaseTime a)) ≠ .gt ↔ _
  by_cases ha : releaseTime a ≤ t <;> by_cases hb : releaseTime b ≤ t
  · rw [if_neg (by tauto), if_neg (by tauto)]
    rw [Int.compare_ne_gt]
    tauto
  · rw [if_pos ⟨ha, hb⟩]
    simp [ha, hb]
  · rw [if_neg (by tauto), if_pos ⟨ha, hb⟩]
    simp [ha, hb]
  · rw [if_neg (by tauto), if_neg (by tauto)]
    rw [Int.compare_ne_gt]
    tauto

theorem timestampCmp_consistent (t : Int) (ps : List Package) : Consistent (timestampCmp t) ps := by
  constructor
  · intro x _ y _
    unfold timestampCmp
    simp only
    split
    · rename_i h
      rw [if_neg (by tauto), if_pos ⟨h.2, h.1⟩]; rfl
    · split
      · rename_i h1 h
        rw [if_pos ⟨h.2, h.1⟩]; rfl
      · rw [if_neg (by tauto), if_neg (by tauto)]
        exact (Int.compare_swap _ _).symm
  · intro x _ y _ z _
    simp only [timestampCmp_spec]
    generalize releaseTime x = a
    generalize releaseTime y = b
    generalize releaseTime z = c
    intro h1 h2
    refine ⟨fun hc => h1.1 (h2.1 hc), ?_⟩
    intro hac
    by_cases hb : b ≤ t
    · have ha := h1.1 hb
      have hc := hac.mp ha
      have := h1.2 ⟨fun _ => hb, fun _ => ha⟩
      have := h2.2 ⟨fun _ => hc, fun _ => hb⟩
      omega
    · by_cases ha : a ≤ t
      · exact absurd (h2.1 (hac.mp ha)) hb
      · have hc : ¬ c ≤ t := fun h => ha (hac.mpr h)
        have := h1.2 ⟨fun h => absurd h ha, fun h => absurd h hb⟩
        have := h2.2 ⟨fun h => absurd h hb, fun h => absurd h hc⟩
        omega

theorem sortSplit_runs {s : Sorting} (hs : SortingOk s) {l : List Package} (h : Comparable l)
    (hv : ∀ p ∈ l, p.version ≠ none) : ∃ r, sortSplit s l = .ok r := by
  unfold sortSplit
  rw [if_neg]
  · obtain ⟨r, hr, _⟩ := hs.sorted _ _ (splitCmp_consistent h hv)
    exact ⟨r, hr⟩
  · rintro ⟨_, h2⟩
    obtain ⟨p, hp, hn⟩ := List.any_eq_true.mp h2
    exact hv p hp (Option.isNone_iff_eq_none.mp hn)

theorem collect_runs {f : Str → Outcome (List Package)} {fams : List Str} (h : ∀ fam ∈ fams, ∃ l, f fam = .ok l) :
    ∃ l, collect f fams = .ok l := by
  induction fams with
  | nil => exact ⟨[], rfl⟩
  | cons a fams ih =>
    obtain ⟨x, hx⟩ := h a List.mem_cons_self
    obtain ⟨y, hy⟩ := ih fun fam hm => h fam (List.mem_cons_of_mem _ hm)
    refine ⟨x ++ y, ?_⟩
    rw [collect, hx, hy, append]

theorem mem_group {ps : List Package} {fam : Str} {p : Package} (h : p ∈ group ps fam) : p ∈ ps :=
  (List.mem_filter.mp h).1

mutual
theorem reorder_runs {s : Sorting} (hs : SortingOk s) :
    ∀ (o : Order) (ps : List Package), Comparable ps → (SplitFree o ∨ ∀ p ∈ ps, p.version ≠ none) →
      ∃ r, reorder s o ps = .ok r
  | .null _, ps, _, _ => ⟨none, by rw [reorder]⟩
  | .sorted d _, ps, h, _ => by
    obtain ⟨r, hr, _⟩ := hs.sorted _ _ (sortedCmp_consistent d h)
    exact ⟨some r, by rw [reorder, hr, wrap]⟩
  | .split first _, ps, h, hv => by
    have hv : ∀ p ∈ ps, p.version ≠ none := hv.resolve_left (by simp [SplitFree])
    have hb : ∀ P : Package → Bool, ∃ r, sortSplit s (ps.filter P) = .ok r := fun P =>
      sortSplit_runs hs (comparable_sub h fun q hq => (List.mem_filter.mp hq).1)
        fun p hp => hv p (List.mem_filter.mp hp).1
    obtain ⟨x, hx⟩ := hb (atMost first)
    obtain ⟨y, hy⟩ := hb fun p => !atMost first p
    exact ⟨some (x ++ y), by rw [reorder, hx, hy, append, wrap]⟩
  | .perFamily d o, ps, h, hv => by
    have : ∃ l, collect (fun fam => orElse (group ps fam)
      ((reorderDict s d fam (group ps fam)).or (reorderDefault s o (group ps fam)))) (s.groups (families ps)) = .ok l := by
      apply collect_runs
      intro fam _
      have hg : Comparable (group ps fam) := comparable_sub h fun q hq => mem_group hq
      have hv' : ∀ (Q : Prop), ((DictSplitFree d ∧ DefaultSplitFree o) → Q) →
          (Q ∨ ∀ p ∈ group ps fam, p.version ≠ none) := by
        intro Q hQ
        rcases hv with hv | hv
        · exact Or.inl (hQ (by rwa [SplitFree] at hv))
        · exact Or.inr fun p hp => hv p (mem_group hp)
      cases hd : reorderDict s d fam (group ps fam) with
      | some x =>
        obtain ⟨r, rfl⟩ := reorderDict_runs hs d fam _ hg (hv' _ fun q => q.1) x hd
        cases r with
        | none => exact ⟨_, rfl⟩
        | some l => exact ⟨l, rfl⟩
      | none =>
        rw [Option.none_or]
        cases hq : reorderDefault s o (group ps fam) with
        | none => exact ⟨_, rfl⟩
        | some x =>
          obtain ⟨r, rfl⟩ := reorderDefault_runs hs o _ hg (hv' _ fun q => q.2) x hq
          cases r with
          | none => exact ⟨_, rfl⟩
          | some l => exact ⟨l, rfl⟩
    obtain ⟨l, hl⟩ := this
    exact ⟨some l, by rw [reorder, hl, wrap]⟩
  | .timestamp t _ _, ps, _, _ => by
    obtain ⟨r, hr, _⟩ := hs.sorted _ _ (timestampCmp_consistent t ps)
    exact ⟨some r, by rw [reorder, hr, wrap]⟩
theorem reorderDict_runs {s : Sorting} (hs : SortingOk s) :
    ∀ (d : Dict) (fam : Str) (ps : List Package), Comparable ps → (DictSplitFree d ∨ ∀ p ∈ ps, p.version ≠ none) →
      ∀ x, reorderDict s d fam ps = some x → ∃ r, x = .ok r
  | .nil, fam, ps, _, _, x, h => by simp [reorderDict] at h
  | .cons f o rest, fam, ps, hc, hv, x, h => by
    rw [reorderDict] at h
    split at h
    · obtain ⟨r, hr⟩ := reorder_runs hs o ps hc (hv.imp (fun q => by rw [DictSplitFree] at q; exact q.1) id)
      exact ⟨r, by rw [hr] at h; exact (Option.some.inj h).symm⟩
    · exact reorderDict_runs hs rest fam ps hc (hv.imp (fun q => by rw [DictSplitFree] at q; exact q.2) id) x h
theorem reorderDefault_runs {s : Sorting} (hs : SortingOk s) :
    ∀ (d : Default) (ps : List Package), Comparable ps → (DefaultSplitFree d ∨ ∀ p ∈ ps, p.version ≠ none) →
      ∀ x, reorderDefault s d ps = some x → ∃ r, x = .ok r
  | .none, ps, _, _, x, h => by simp [reorderDefault] at h
  | .some o, ps, hc, hv, x, h => by
    rw [reorderDefault] at h
    obtain ⟨r, hr⟩ := reorder_runs hs o ps hc (hv.imp (fun q => by rwa [DefaultSplitFree] at q) id)
    exact ⟨r, by rw [hr] at h; exact (Option.some.inj h).symm⟩
end

/-- C53, partial: an orderer returns (no panic) on every list of packages whose versions compare transitively, if all
have versions or no version-split orderer is involved.  Missing: lists with packages without versions given to a
version-split orderer (refuted below) and versions that compare in a cycle, where the standard library's sort is free
to panic. -/
theorem C53_no_panic_partial {s : Sorting} (hs : SortingOk s) (o : Order) (ps : List Package) (hc : Comparable ps)
    (hv : SplitFree o ∨ ∀ p ∈ ps, p.version ≠ none) : ∃ r, reorder s o ps = .ok r := reorder_runs hs o ps hc hv

/-- C53, partial: the timestamp orderer always returns. -/
theorem C53_timestamp_returns_partial {s : Sorting} (hs : SortingOk s) (t rank : Int) (fams : Option (List Str))
    (ps : List Package) : ∃ l, reorder s (.timestamp t rank fams) ps = .ok (some l) ∧ l.Perm ps := by
  obtain ⟨r, hr, _⟩ := hs.sorted _ _ (timestampCmp_consistent t ps)
  exact ⟨r, by rw [reorder, hr, wrap], hs.perm _ _ _ hr⟩

/-- C53 is false: whatever the split, a version-split orderer panics on every list in which two packages have no
version. -/
theorem C53_panic_false (s : Sorting) (first : Version) (fams : Option (List Str))
    (a b c : List Package) (p q : Package) (hp : p.version = none) (hq : q.version = none) :
    ∀ r, reorder s (.split first fams) (a ++ p :: b ++ q :: c) ≠ .ok r := by
  intro r h
  rw [reorder] at h
  obtain ⟨l, hl, _⟩ := wrap_ok h
  obtain ⟨x, y, _, hy, _⟩ := append_ok hl
  unfold sortSplit at hy
  have hpm : atMost first p = false := by unfold atMost; rw [hp]
  have hqm : atMost first q = false := by unfold atMost; rw [hq]
  rw [if_pos] at hy
  · cases hy
  · constructor
    · simp [List.filter_append, hpm, hqm]
      omega
    · apply List.any_eq_true.mpr
      exact ⟨p, List.mem_filter.mpr ⟨by simp, by simp [hpm]⟩, by simp [hp]⟩

/-- A package with a version and a release time. -/
def pk (name : Str) (v : Option Str) (t : Option Int) : Package :=
  ⟨name, v.bind Version.parse, [], [], [], t⟩

def demoPackages : List Package :=
  [pk c!"b" (some c!"1.0") (some 5), pk c!"a" (some c!"2.1") none, pk c!"b" (some c!"3.2") (some 9),
    pk c!"a" (some c!"1.3") (some 7)]

def demoOrder : Order :=
  .perFamily (.cons c!"a" (.sorted true none) .nil) (.some (.split ⟨[c!"2"], [], c!"2"⟩ none))

/-- The texts of the packages of a result. -/
def keysOf : Outcome (Option (List Package)) → Option (List Str)
  | .ok (some l) => some (l.map Package.key)
  | _ => none

theorem demoComparable : Comparable demoPackages := by
  have : ∀ p ∈ demoPackages, ∀ q ∈ demoPackages, ∀ r ∈ demoPackages,
      sortedCmp false p q ≠ .gt → sortedCmp false q r ≠ .gt → sortedCmp false p r ≠ .gt := by decide +kernel
  intro p hp q hq r hr u v w hu hv hw
  simpa [sortedCmp, hu, hv, hw] using this p hp q hq r hr

-- the hypotheses of C53 hold for a nested orderer on a list of two families, and the order changes
example : SortingOk demoSorting ∧ Comparable demoPackages ∧ (∀ p ∈ demoPackages, p.version ≠ none) ∧
    keysOf (reorder demoSorting demoOrder demoPackages) = some [c!"a-2.1", c!"a-1.3", c!"b-1.0", c!"b-3.2"] :=
  ⟨demoSorting_ok, demoComparable, by decide +kernel, by decide +kernel⟩

/-! ## C54 -/

/-- C54, partial: a sorted orderer lists versions in the requested direction and packages without a version last, if
the versions compare transitively.  Missing: versions that compare in a cycle (refuted below). -/
theorem C54_sorted_partial {s : Sorting} (hs : SortingOk s) (d : Bool) (fams : Option (List Str)) (ps : List Package)
    (hc : Comparable ps) :
    ∃ l, reorder s (.sorted d fams) ps = .ok (some l) ∧ l.Perm ps ∧ InDirection d l := by
  obtain ⟨r, hr, hp⟩ := hs.sorted _ _ (sortedCmp_consistent d hc)
  refine ⟨r, by rw [reorder, hr, wrap], hs.perm _ _ _ hr, ?_⟩
  refine hp.imp ?_
  intro p q h
  unfold sortedCmp at h
  constructor
  · intro hn
    rw [hn] at h
    cases hq : q.version with
    | none => rfl
    | some v => rw [hq] at h; exact absurd rfl h
  · intro u v hu hv
    rw [hu, hv] at h
    cases d
    · simpa using h
    · simp only [if_true] at h ⊢
      rw [C01_compare_swap v u]
      cases hvu : v.cmp u <;> simp_all

/-- C54 is false for versions that compare in a cycle: `b < 99999999999999999999 < a1 < b`; no order of the three is
sorted, so whatever the sort returns is not. -/
theorem C54_sorted_false {s : Sorting} (hs : SortingOk s) (fams : Option (List Str)) (l : List Package) :
    reorder s (.sorted false fams) [pk c!"p" (some c!"b") none, pk c!"p" (some c!"99999999999999999999") none,
      pk c!"p" (some c!"a1") none] = .ok (some l) → ¬ InDirection false l := by
  intro h hd
  have hp := C53_permutation hs _ _ _ h
  cases l with
  | nil => exact absurd hp.length_eq (by simp)
  | cons x rest =>
    have hx := hp.mem_iff.mp (List.mem_cons_self (a := x) (l := rest))
    have key : ∀ y : Package, x ≠ y → y ∈ [pk c!"p" (some c!"b") none, pk c!"p" (some c!"99999999999999999999") none,
        pk c!"p" (some c!"a1") none] → ∀ u v, x.version = some u → y.version = some v → u.cmp v ≠ .gt := by
      intro y hne hy u v hu hv
      have hy' := hp.mem_iff.mpr hy
      rcases List.mem_cons.mp hy' with e | hy'
      · exact absurd e.symm hne
      · simpa using ((List.pairwise_cons.mp hd).1 y hy').2 u v hu hv
    have hver : ∀ t v, Version.parse t = some v → (pk c!"p" (some t) none).version = some v := fun t v h => h
    have hdiff : ∀ a b : Package, a.version.map Version.asStr ≠ b.version.map Version.asStr → a ≠ b :=
      fun a b h e => h (by rw [e])
    rcases List.mem_cons.mp hx with rfl | hx
    · exact key (pk c!"p" (some c!"a1") none) (hdiff _ _ (by decide +kernel)) (by simp) _ _ rfl rfl (by decide +kernel)
    · rcases List.mem_cons.mp hx with rfl | hx
      · exact key (pk c!"p" (some c!"b") none) (hdiff _ _ (by decide +kernel)) (by simp) _ _ rfl rfl (by decide +kernel)
      · rw [List.mem_singleton] at hx
        subst hx
        exact key (pk c!"p" (some c!"99999999999999999999") none) (hdiff _ _ (by decide +kernel)) (by simp) _ _ rfl rfl
          (by decide +kernel)

theorem atMost_iff (v : Version) (p : Package) : atMost v p = true ↔ AtMost v p := by
  unfold atMost AtMost
  cases p.version with
  | none => simp
  | some u => simp

/-- C54: whatever a version-split orderer returns lists all versions up to the split before everything else. -/
theorem C54_split {s : Sorting} (hs : SortingOk s) (first : Version) (fams : Option (List Str)) (ps l : List Package)
    (h : reorder s (.split first fams) ps = .ok (some l)) :
    l.Pairwise fun p q => AtMost first q → AtMost first p := by
  rw [reorder] at h
  obtain ⟨m, hm, e⟩ := wrap_ok h
  cases e
  obtain ⟨x, y, hx, hy, rfl⟩ := append_ok hm
  have hxm : ∀ p ∈ x, AtMost first p := fun p hp =>
    (atMost_iff first p).mp (List.mem_filter.mp ((sortSplit_perm hs hx).mem_iff.mp hp)).2
  have hym : ∀ p ∈ y, ¬ AtMost first p := fun p hp ha => by
    have := (List.mem_filter.mp ((sortSplit_perm hs hy).mem_iff.mp hp)).2
    rw [(atMost_iff first p).mpr ha] at this
    exact absurd this (by simp)
  apply List.pairwise_append.mpr
  refine ⟨?_, ?_, fun p hp q _ _ => hxm p hp⟩
  · exact List.Pairwise.imp_of_mem (fun hp _ _ _ => hxm _ hp) (List.pairwise_of_forall (R := fun _ _ => True) fun _ _ => trivial)
  · exact List.Pairwise.imp_of_mem (fun _ hq _ ha => absurd ha (hym _ hq))
      (List.pairwise_of_forall (R := fun _ _ => True) fun _ _ => trivial)

theorem sortSplit_sorted {s : Sorting} (hs : SortingOk s) {l r : List Package} (hc : Comparable l)
    (hv : ∀ p ∈ l, p.version ≠ none) (h : sortSplit s l = .ok r) :
    r.Pairwise fun p q => ∀ u v, p.version = some u → q.version = some v → u.cmp v ≠ .gt := by
  unfold sortSplit at h
  split at h
  · cases h
  · obtain ⟨r', hr', hp⟩ := hs.sorted _ _ (splitCmp_consistent hc hv)
    rw [hr'] at h
    cases h
    refine hp.imp ?_
    intro p q hpq u v hu hv
    simpa [splitCmp, hu, hv] using hpq

/-- C54, partial: on each side of the split versions ascend, if all packages have versions that compare
transitively. -/
theorem C54_split_ascending_partial {s : Sorting} (hs : SortingOk s) (first : Version) (fams : Option (List Str))
    (ps : List Package) (hc : Comparable ps) (hv : ∀ p ∈ ps, p.version ≠ none) :
    ∃ l, reorder s (.split first fams) ps = .ok (some l) ∧
      l.Pairwise fun p q => (AtMost first p ↔ AtMost first q) →
        ∀ u v, p.version = some u → q.version = some v → u.cmp v ≠ .gt := by
  obtain ⟨r, hr⟩ := C53_no_panic_partial hs (.split first fams) ps hc (Or.inr hv)
  have hr' := hr
  rw [reorder] at hr'
  obtain ⟨m, hm, e⟩ := wrap_ok hr'
  subst e
  refine ⟨m, hr, ?_⟩
  obtain ⟨x, y, hx, hy, rfl⟩ := append_ok hm
  have hsub : ∀ P : Package → Bool, Comparable (ps.filter P) := fun P =>
    comparable_sub hc fun q hq => (List.mem_filter.mp hq).1
  have hvs : ∀ (P : Package → Bool), ∀ p ∈ ps.filter P, p.version ≠ none := fun P p hp => hv p (List.mem_filter.mp hp).1
  apply List.pairwise_append.mpr
  refine ⟨List.Pairwise.imp ?_ (sortSplit_sorted hs (hsub _) (hvs _) hx),
    List.Pairwise.imp ?_ (sortSplit_sorted hs (hsub _) (hvs _) hy), ?_⟩
  · intro p q h _
    exact h
  · intro p q h _
    exact h
  intro p hp q hq hiff
  have h1 := (atMost_iff first p).mp (List.mem_filter.mp ((sortSplit_perm hs hx).mem_iff.mp hp)).2
  have h2 := (List.mem_filter.mp ((sortSplit_perm hs hy).mem_iff.mp hq)).2
  rw [(atMost_iff first q).mpr (hiff.mp h1)] at h2
  exact absurd h2 (by simp)

/-- C54: a timestamp orderer lists the packages released up to its time first, and on each side the newest release
first; a package without a release time counts as released at 0. -/
theorem C54_timestamp {s : Sorting} (hs : SortingOk s) (t rank : Int) (fams : Option (List Str)) (ps : List Package) :
    ∃ l, reorder s (.timestamp t rank fams) ps = .ok (some l) ∧ l.Perm ps ∧
      l.Pairwise fun p q => (releaseTime q ≤ t → releaseTime p ≤ t) ∧
        ((releaseTime p ≤ t ↔ releaseTime q ≤ t) → releaseTime q ≤ releaseTime p) := by
  obtain ⟨r, hr, hp⟩ := hs.sorted _ _ (timestampCmp_consistent t ps)
  exact ⟨r, by rw [reorder, hr, wrap], hs.perm _ _ _ hr, hp.imp fun h => (timestampCmp_spec t _ _).mp h⟩

theorem reorderDict_of_inDict {s : Sorting} {fam : Str} {o : Order} {d : Dict} (h : InDict fam o d)
    (ps : List Package) : reorderDict s d fam ps = some (reorder s o ps) := by
  induction h with
  | here => rw [reorderDict, if_pos rfl]
  | there hne _ ih => rw [reorderDict, if_neg hne, ih]

theorem inDict_of_reorderDict {s : Sorting} {fam : Str} {ps : List Package} {x : Outcome (Option (List Package))} :
    ∀ {d : Dict}, reorderDict s d fam ps = some x → ∃ o, InDict fam o d
  | .nil, h => by simp [reorderDict] at h
  | .cons f o rest, h => by
    rw [reorderDict] at h
    split at h
    · rename_i e
      subst e
      exact ⟨o, .here⟩
    · rename_i e
      obtain ⟨o', h'⟩ := inDict_of_reorderDict h
      exact ⟨o', .there e h'⟩

theorem filter_flatMap_family {fams : List Str} {g : Str → List Package} {ps : List Package} {fam : Str}
    (hn : fams.Nodup) (hg : ∀ f ∈ fams, (g f).Perm (group ps f)) (hm : fam ∈ fams) :
    (fams.flatMap g).filter (fun p => p.name == fam) = g fam := by
  have hname : ∀ f ∈ fams, ∀ p ∈ g f, p.name = f := by
    intro f hf p hp
    simpa using (List.mem_filter.mp ((hg f hf).mem_iff.mp hp)).2
  induction fams with
  | nil => cases hm
  | cons a fams ih =>
    rw [List.flatMap_cons, List.filter_append]
    have hn' := List.nodup_cons.mp hn
    rcases List.mem_cons.mp hm with rfl | hm
    · have h1 : (g fam).filter (fun p => p.name == fam) = g fam := by
        apply List.filter_eq_self.mpr
        intro p hp
        simp [hname fam List.mem_cons_self p hp]
      have h2 : (fams.flatMap g).filter (fun p => p.name == fam) = [] := by
        apply List.filter_eq_nil_iff.mpr
        intro p hp
        obtain ⟨f, hf, hpf⟩ := List.mem_flatMap.mp hp
        have := hname f (List.mem_cons_of_mem _ hf) p hpf
        simp only [beq_iff_eq]
        intro e
        exact hn'.1 (by rw [← e, this]; exact hf)
      rw [h1, h2, List.append_nil]
    · have h1 : (g a).filter (fun p => p.name == fam) = [] := by
        apply List.filter_eq_nil_iff.mpr
        intro p hp
        have := hname a List.mem_cons_self p hp
        simp only [beq_iff_eq]
        intro e
        exact hn'.1 (by rw [← this, e]; exact hm)
      rw [h1, List.nil_append]
      exact ih hn'.2 (fun f hf => hg f (List.mem_cons_of_mem _ hf)) hm fun f hf => hname f (List.mem_cons_of_mem _ hf)

theorem orElse_family {s : Sorting} {d : Dict} {dflt : Default} {ps : List Package} {fam : Str} {x : List Package}
    (hgf : orElse (group ps fam)
      ((reorderDict s d fam (group ps fam)).or (reorderDefault s dflt (group ps fam))) = .ok x) :
    (∀ o, ChosenFor d dflt fam o →
        reorder s o (group ps fam) = .ok (some x) ∨ (reorder s o (group ps fam) = .ok none ∧ x = group ps fam)) ∧
      ((∀ o, ¬ ChosenFor d dflt fam o) → x = group ps fam) := by
  have hor : ∀ {o : Order}, orElse (group ps fam) (some (reorder s o (group ps fam))) = .ok x →
      reorder s o (group ps fam) = .ok (some x) ∨ (reorder s o (group ps fam) = .ok none ∧ x = group ps fam) := by
    intro o hg
    cases hr : reorder s o (group ps fam) with
    | ok y =>
      rw [hr] at hg
      cases y with
      | none => cases hg; exact Or.inr ⟨rfl, rfl⟩
      | some z => cases hg; exact Or.inl rfl
    | err => rw [hr] at hg; cases hg
    | panic => rw [hr] at hg; cases hg
  have hnone : (∀ o', ¬ InDict fam o' d) → reorderDict s d fam (group ps fam) = none := by
    intro h
    cases hd : reorderDict s d fam (group ps fam) with
    | none => rfl
    | some y =>
      obtain ⟨o', h'⟩ := inDict_of_reorderDict hd
      exact absurd h' (h o')
  constructor
  · rintro o (hin | ⟨hno, rfl⟩)
    · rw [reorderDict_of_inDict hin, Option.some_or] at hgf
      exact hor hgf
    · rw [hnone hno, Option.none_or, reorderDefault] at hgf
      exact hor hgf
  · intro hno
    cases dflt with
    | none =>
      rw [hnone fun o' h' => hno o' (Or.inl h'), reorderDefault] at hgf
      cases hgf
      rfl
    | some o =>
      exact absurd (Or.inr ⟨fun o' h' => hno o' (Or.inl h'), rfl⟩) (hno o)

/-- C54: whatever a per-family orderer returns, the packages of each family stand in it as the orderer chosen for the
family (its own, else the default) puts them, and in their old order if there is none or it leaves them alone; and
the packages of a family stand together. -/
theorem C54_per_family {s : Sorting} (hs : SortingOk s) (d : Dict) (dflt : Default) (ps l : List Package)
    (h : reorder s (.perFamily d dflt) ps = .ok (some l)) (fam : Str) :
    (∀ o, ChosenFor d dflt fam o → reorder s o (group ps fam) ≠ .ok none →
      (∃ p ∈ ps, p.name = fam) → reorder s o (group ps fam) = .ok (some (l.filter fun p => p.name == fam))) ∧
    ((∀ o, ChosenFor d dflt fam o → reorder s o (group ps fam) = .ok none) →
      (l.filter fun p => p.name == fam) = ps.filter fun p => p.name == fam) ∧
    ∃ a c, l = a ++ (l.filter fun p => p.name == fam) ++ c := by
  have hperm := C53_permutation hs _ _ _ h
  rw [reorder] at h
  obtain ⟨m, hm, e⟩ := wrap_ok h
  cases e
  obtain ⟨g, hg, rfl⟩ := collect_ok hm
  have hgr := hs.groups (families ps)
  have hn := hgr.nodup_iff.mpr (nodup_families ps)
  have hgp : ∀ f ∈ s.groups (families ps), (g f).Perm (group ps f) := by
    intro f hf
    refine orElse_perm ?_ (hg f hf)
    intro x l' hx hl
    cases hd : reorderDict s d f (group ps f) with
    | some y =>
      rw [hd] at hx
      cases hx
      exact reorderDict_perm hs d f _ _ (hd.trans (by rw [hl]))
    | none =>
      rw [hd, Option.none_or] at hx
      exact reorderDefault_perm hs dflt _ _ (hx.trans (by rw [hl]))
  by_cases hfam : ∃ p ∈ ps, p.name = fam
  · have hmem : fam ∈ s.groups (families ps) := hgr.mem_iff.mpr ((mem_families ps fam).mpr hfam)
    have heq := filter_flatMap_family hn hgp hmem
    have hof := orElse_family (hg fam hmem)
    rw [heq]
    refine ⟨?_, ?_, ?_⟩
    · intro o ho hne _
      rcases hof.1 o ho with h1 | ⟨h1, _⟩
      · exact h1
      · exact absurd h1 hne
    · intro hall
      by_cases hex : ∃ o, ChosenFor d dflt fam o
      · obtain ⟨o, ho⟩ := hex
        rcases hof.1 o ho with h1 | ⟨_, h2⟩
        · rw [hall o ho] at h1; cases h1
        · exact h2
      · exact hof.2 fun o ho => hex ⟨o, ho⟩
    · obtain ⟨a, c, hac⟩ := List.append_of_mem hmem
      exact ⟨a.flatMap g, c.flatMap g, by rw [hac, List.flatMap_append, List.flatMap_cons, List.append_assoc]⟩
  · have hl : (List.filter (fun p => p.name == fam) ((s.groups (families ps)).flatMap g)) = [] := by
      apply List.filter_eq_nil_iff.mpr
      intro p hp
      simp only [beq_iff_eq]
      intro e
      exact hfam ⟨p, hperm.mem_iff.mp hp, e⟩
    have hp : (ps.filter fun p => p.name == fam) = [] := by
      apply List.filter_eq_nil_iff.mpr
      intro p hp
      simp only [beq_iff_eq]
      intro e
      exact hfam ⟨p, hp, e⟩
    rw [hl, hp]
    exact ⟨fun _ _ _ hx => absurd hx hfam, fun _ => rfl, (s.groups (families ps)).flatMap g, [],
      by rw [List.append_nil, List.append_nil]⟩

-- the hypotheses of C54 hold on demo lists, and the results are what the English says
example : keysOf (reorder demoSorting (.sorted true none) demoPackages) =
      some [c!"b-3.2", c!"a-2.1", c!"a-1.3", c!"b-1.0"] ∧
    keysOf (reorder demoSorting (.sorted false none) (pk c!"c" none none :: demoPackages)) =
      some [c!"b-1.0", c!"a-1.3", c!"a-2.1", c!"b-3.2", c!"c"] ∧
    keysOf (reorder demoSorting (.split ⟨[c!"2"], [], c!"2"⟩ none) (demoPackages ++ [pk c!"c" none none])) = none ∧
    keysOf (reorder demoSorting (.timestamp 7 0 none) demoPackages) =
      some [c!"a-1.3", c!"b-1.0", c!"a-2.1", c!"b-3.2"] := by
  decide +kernel

example : SortingOk demoSorting ∧ ChosenFor (.cons c!"a" (.sorted true none) .nil) (.some (.null none)) c!"a" (.sorted true none) ∧
    ChosenFor (.cons c!"a" (.sorted true none) .nil) (.some (.null none)) c!"b" (.null none) := by
  refine ⟨demoSorting_ok, Or.inl .here, Or.inr ⟨?_, rfl⟩⟩
  intro o' h
  cases h with
  | there _ h => cases h

/-! ## C55 -/

theorem readNames_pod (p : Option (List Str)) (fs : List (Str × Json))
    (h : mget fs c!"packages" = some (podNames p)) : readNames (.obj fs) = p := by
  unfold readNames Json.get
  simp only [h]
  cases p with
  | none => rfl
  | some l =>
    simp only [podNames, Option.bind_some, Json.asArr, Option.map_some, Option.some.injEq]
    clear h
    induction l with
    | nil => rfl
    | cons a l ih => rw [List.map_cons, List.filterMap_cons]; simp only [Json.asStr]; rw [ih]

theorem toI32_id {n : Int} (h1 : -(2 ^ 31) ≤ n) (h2 : n < 2 ^ 31) : toI32 n = n := by
  unfold toI32
  omega

/-- C55, partial: an orderer other than a per-family one survives the conversion to its plain description and back
unchanged.  (Times are 64-bit and ranks 32-bit numbers in the code.)  Missing: per-family orderers (refuted below). -/
theorem C55_round_trip_partial (o : Order)
    (hsplit : ∀ v p, o = .split v p → ∃ text, Version.parse text = some v)
    (htime : ∀ t r p, o = .timestamp t r p → -(2 ^ 63) ≤ t ∧ t < 2 ^ 63 ∧ -(2 ^ 31) ≤ r ∧ r < 2 ^ 31)
    (hfam : ∀ d q, o ≠ .perFamily d q) : fromPod (toPod o) = some o := by
  cases o with
  | null p =>
    have : readNames (toPod (.null p)) = p := readNames_pod p _ rfl
    show (some (Order.null (readNames (toPod (.null p))))) = _
    rw [this]
  | sorted d p =>
    have : readNames (toPod (.sorted d p)) = p := readNames_pod p _ rfl
    show (some (Order.sorted d (readNames (toPod (.sorted d p))))) = _
    rw [this]
  | split v p =>
    obtain ⟨text, ht⟩ := hsplit v p rfl
    have : readNames (toPod (.split v p)) = p := readNames_pod p _ rfl
    show ((Version.parse v.asStr).bind fun w => some (Order.split w (readNames (toPod (.split v p))))) = _
    rw [this, C04_round_trip text v ht]
    rfl
  | perFamily d q => exact absurd rfl (hfam d q)
  | timestamp t r p =>
    obtain ⟨h1, h2, h3, h4⟩ := htime t r p rfl
    have : readNames (toPod (.timestamp t r p)) = p := readNames_pod p _ rfl
    show ((Json.asI64 (.num t)).bind fun t' => some (Order.timestamp t' (toI32 ((Json.asI64 (.num r)).getD 0))
      (readNames (toPod (.timestamp t r p))))) = _
    have hr : Json.asI64 (.num r) = some r := if_pos ⟨by omega, by omega⟩
    have ht : Json.asI64 (.num t) = some t := if_pos ⟨h1, h2⟩
    rw [this, hr, ht, Option.getD_some, toI32_id h3 h4]
    rfl

/-- C55, partial: a list of such orderers survives, so the orderer used for each family does. -/
theorem C55_list_partial (l : List Order)
    (h : ∀ o ∈ l, (∀ v p, o = .split v p → ∃ text, Version.parse text = some v) ∧
      (∀ t r p, o = .timestamp t r p → -(2 ^ 63) ≤ t ∧ t < 2 ^ 63 ∧ -(2 ^ 31) ≤ r ∧ r < 2 ^ 31) ∧
      ∀ d q, o ≠ .perFamily d q) : listFromPod (listToPod l) = l := by
  unfold listFromPod listToPod
  induction l with
  | nil => rfl
  | cons o l ih =>
    have ho := h o List.mem_cons_self
    rw [List.map_cons, List.filterMap_cons, C55_round_trip_partial o ho.1 ho.2.1 ho.2.2]
    simp only
    rw [ih fun o' ho' => h o' (List.mem_cons_of_mem _ ho')]

/-- C55 is false for every per-family orderer: its description cannot be read back. -/
theorem C55_per_family_false (d : Dict) (dflt : Default) : fromPod (toPod (.perFamily d dflt)) = none := by
  rw [toPod]
  rfl

/-- C55 is false for lists: a per-family orderer disappears from the list, and another orderer takes its place. -/
theorem C55_list_false : ∃ (l : List Order) (d : Dict) (dflt : Default),
    getFirst l c!"maya" = some (.perFamily d dflt) ∧ getFirst (listFromPod (listToPod l)) c!"maya" = some (.sorted false none) :=
  ⟨[.perFamily (.cons c!"maya" (.sorted true none) .nil) .none, .sorted false none], _, _, rfl, by
    rfl⟩

example : (∃ text, Version.parse text = some ⟨[c!"2", c!"0"], [c!"."], c!"2.0"⟩) ∧
    fromPod (toPod (.split ⟨[c!"2", c!"0"], [c!"."], c!"2.0"⟩ (some [c!"maya"]))) =
      some (.split ⟨[c!"2", c!"0"], [c!"."], c!"2.0"⟩ (some [c!"maya"])) :=
  ⟨⟨c!"2.0", rfl⟩, rfl⟩

/-! ## C98 -/

/-- C98: the orderer used for a family is the first of the list that names the family or names no families. -/
theorem C98_first (l : List Order) (name : Str) (o : Order) :
    getFirst l name = some o ↔
      ∃ pre post, l = pre ++ o :: post ∧ AppliesTo o name ∧ ∀ x ∈ pre, ¬ AppliesTo x name := by
  induction l with
  | nil => simp [getFirst]
  | cons a l ih =>
    have hstep : ∀ (hna : ¬ AppliesTo a name), (∃ pre post, a :: l = pre ++ o :: post ∧ AppliesTo o name ∧
        ∀ x ∈ pre, ¬ AppliesTo x name) ↔ ∃ pre post, l = pre ++ o :: post ∧ AppliesTo o name ∧
        ∀ x ∈ pre, ¬ AppliesTo x name := by
      intro hna
      constructor
      · rintro ⟨pre, post, he, ho, hp⟩
        cases pre with
        | nil => cases he; exact absurd ho hna
        | cons b pre =>
          cases he
          exact ⟨pre, post, rfl, ho, fun x hx => hp x (List.mem_cons_of_mem _ hx)⟩
      · rintro ⟨pre, post, he, ho, hp⟩
        refine ⟨a :: pre, post, by rw [he]; rfl, ho, ?_⟩
        intro x hx
        rcases List.mem_cons.mp hx with rfl | hx
        · exact hna
        · exact hp x hx
    have hfirst : ∀ (ha : AppliesTo a name), (some a = some o ↔ ∃ pre post, a :: l = pre ++ o :: post ∧ AppliesTo o name ∧
        ∀ x ∈ pre, ¬ AppliesTo x name) := by
      intro ha
      constructor
      · intro e
        cases e
        exact ⟨[], l, rfl, ha, by simp⟩
      · rintro ⟨pre, post, he, ho, hp⟩
        cases pre with
        | nil => cases he; rfl
        | cons b pre => cases he; exact absurd ha (hp a List.mem_cons_self)
    rw [getFirst]
    cases hk : a.packages with
    | none =>
      simp only
      exact hfirst fun q hq => by rw [hk] at hq; cases hq
    | some names =>
      simp only
      by_cases hm : name ∈ names
      · rw [if_pos hm]
        exact hfirst fun q hq => by rw [hk] at hq; cases hq; exact hm
      · rw [if_neg hm, ih]
        exact (hstep fun h => hm (h names hk)).symm

/-- C98: without a list, or if no orderer of the list applies, packages keep their order. -/
theorem C98_default (s : Sorting) (name : Str) (orderers : Option (List Order))
    (h : ∀ l, orderers = some l → ∀ o ∈ l, ¬ AppliesTo o name) (ps : List Package) :
    reorder s (getOrderer name orderers) ps = .ok none := by
  have : getOrderer name orderers = .null none := by
    unfold getOrderer
    cases orderers with
    | none => rfl
    | some l =>
      simp only
      cases hg : getFirst l name with
      | none => rfl
      | some o =>
        obtain ⟨pre, post, he, ho, _⟩ := (C98_first l name o).mp hg
        exact absurd ho (h l rfl o (by rw [he]; simp))
  rw [this, reorder]

example : getFirst [.sorted true (some [c!"houdini"]), .null (some [c!"maya"]), .sorted false none] c!"maya" =
    some (.null (some [c!"maya"])) := rfl

end Rez.Props
