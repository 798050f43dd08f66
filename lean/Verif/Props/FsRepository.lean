import Verif.Spec.FsRepository
import Verif.Props.PackageFiles
/-!
# The filesystem package repository: C126 (ignoring), C127 (removing), C128 (removing what was ignored), C129 (families and
read-only repositories), C130 (lookups)
-/
namespace Rez.Props
open Rez Rez.Files Rez.FsRepo Rez.Spec.FsRepo
open Rez.Spec.Files (Ok Lists Component Same Gone Stops)
open FilesLemmas (run_other run_append nodup_run removeTree_get removeTree_path mkdirAll_get mkdirAll_path below_get below_nodup
  mget_perm_entries prefix_append_cases join_component join_two path)

namespace FsRepoLemmas

theorem component_part {s : Str} (h : Component s) : part s = [.normal s] := by
  unfold part
  rw [if_neg h.filled, if_neg h.dots.1, if_neg h.dots.2]

theorem component_head {s : Str} (h : Component s) : s.head? ≠ some '/' := by
  intro he
  cases s with
  | nil => cases he
  | cons c t =>
    simp at he
    subst he
    exact h.slash List.mem_cons_self

theorem valid_component {s : Str} (h : Component s) : valid s = true := by
  unfold valid components
  rw [if_neg (component_head h), splitChar_noSep h.slash]
  simp [firstPart, h.dots.1, component_part h]

theorem part_normal {s n : Str} (h : Comp.normal n ∈ part s) : s = n ∧ s ≠ [] ∧ s ≠ c!"." ∧ s ≠ c!".." := by
  unfold part at h
  split at h
  · cases h
  · split at h
    · cases h
    · split at h
      · simp at h
      · simp at h
        refine ⟨h.symm, ?_, ?_, ?_⟩ <;> assumption

theorem push_part (q : Path) (ps : List Str) :
    (∀ c ∈ ps.flatMap part, ∃ n, c = .normal n) →
    ps.foldl pushPart q = q ++ (ps.flatMap part).filterMap fun c => match c with | .normal n => some n | _ => none := by
  induction ps generalizing q with
  | nil => intro _; simp
  | cons p ps ih =>
    intro h
    rw [List.foldl_cons, ih _ fun c hc => h c (by rw [List.flatMap_cons]; exact List.mem_append_right _ hc)]
    rw [List.flatMap_cons, List.filterMap_append]
    have hp : ∀ c ∈ part p, ∃ n, c = .normal n := fun c hc => h c (by rw [List.flatMap_cons]; exact List.mem_append_left _ hc)
    unfold pushPart
    unfold part at hp ⊢
    by_cases h1 : p = []
    · simp [h1]
    · by_cases h2 : p = c!"."
      · simp [h2]
      · by_cases h3 : p = c!".."
        · rw [if_neg h1, if_neg h2, if_pos h3] at hp
          obtain ⟨n, hn⟩ := hp .parent List.mem_cons_self
          cases hn
        · simp [h1, h2, h3]

theorem valid_join {s : Str} (h : valid s = true) : ∃ c, Component c ∧ ∀ p, join p s = p ++ [c] := by
  unfold valid at h
  split at h
  · rename_i n hc
    unfold components at hc
    by_cases hh : s.head? = some '/'
    · rw [if_pos hh] at hc
      simp at hc
    · rw [if_neg hh, List.nil_append] at hc
      have hsplit := splitChar_ne_nil '/' s
      have hsep : ∀ x ∈ splitChar '/' s, '/' ∉ x := fun x hx => RexLemmas.splitChar_mem hx
      unfold join
      simp only [if_neg hh]
      generalize splitChar '/' s = parts at hc hsplit hsep
      cases parts with
      | nil => exact absurd rfl hsplit
      | cons p ps =>
        simp only at hc
        have hp : p ≠ c!"." := by
          rintro rfl
          simp [firstPart] at hc
        have hall : (p :: ps).flatMap part = [.normal n] := by
          rw [List.flatMap_cons]
          simpa [firstPart, hp] using hc
        have hmem : Comp.normal n ∈ (p :: ps).flatMap part := by rw [hall]; exact List.mem_cons_self
        obtain ⟨x, hx, hxn⟩ := List.mem_flatMap.mp hmem
        have hn := part_normal hxn
        refine ⟨n, ⟨?_, ?_, ?_, ?_⟩, ?_⟩
        · exact hn.1 ▸ hn.2.1
        · exact hn.1 ▸ hsep x hx
        · exact hn.1 ▸ hn.2.2.1
        · exact hn.1 ▸ hn.2.2.2
        · intro q
          rw [push_part q (p :: ps), hall]
          · rfl
          · intro c hc
            rw [hall] at hc
            exact ⟨n, by simpa using hc⟩
  · cases h

theorem valid_exact {s : Str} (h : valid s = true) (hs : '/' ∉ s) : Component s := by
  unfold valid at h
  split at h
  · rename_i n hc
    unfold components at hc
    rw [splitChar_noSep hs] at hc
    have hh : s.head? ≠ some '/' := by
      intro he
      cases s with
      | nil => cases he
      | cons c t =>
        simp at he
        subst he
        exact hs List.mem_cons_self
    rw [if_neg hh] at hc
    have hd : s ≠ c!"." := by
      rintro rfl
      simp [firstPart] at hc
    have hp : part s = [.normal n] := by simpa [firstPart, hd] using hc
    have := part_normal (hp ▸ List.mem_cons_self : Comp.normal n ∈ part s)
    exact ⟨this.2.1, hs, this.2.2⟩
  · cases h

theorem children_mem {order : Order} (ho : Lists order) {fs : FS} (hn : (mkeys fs).Nodup) (p : Path) (n : Str) (e : Entry) :
    (n, e) ∈ children order fs p ↔ mget fs (p ++ [n]) = some e := by
  unfold children
  rw [List.mem_filterMap]
  have hb : mget (below fs p) [n] = mget fs (p ++ [n]) := by rw [below_get, if_neg (by simp)]
  rw [← hb]
  constructor
  · rintro ⟨x, hx, hm⟩
    split at hm
    · rename_i m heq
      simp only [Option.some.injEq, Prod.mk.injEq] at hm
      obtain ⟨rfl, rfl⟩ := hm
      rw [← heq]
      exact mget_of_mem (below_nodup hn p) ((ho _).mem_iff.mp hx)
    · cases hm
  · intro h
    exact ⟨([n], e), (ho _).mem_iff.mpr (mget_some_mem h), rfl⟩

theorem children_nodup {order : Order} (ho : Lists order) {fs : FS} (hn : (mkeys fs).Nodup) (p : Path) :
    ((children order fs p).map Prod.fst).Nodup := by
  have h1 : (mkeys (order (below fs p))).Nodup := ((ho _).map Prod.fst).nodup_iff.mpr (below_nodup hn p)
  unfold children
  generalize order (below fs p) = l at h1
  induction l with
  | nil => simp
  | cons x l ih =>
    have h2 := List.nodup_cons.mp h1
    rw [List.filterMap_cons]
    split
    · exact ih h2.2
    · rename_i y hy
      rw [List.map_cons, List.nodup_cons]
      refine ⟨?_, ih h2.2⟩
      intro hm
      obtain ⟨z, hz, hzy⟩ := List.mem_map.mp hm
      obtain ⟨w, hw, hwz⟩ := List.mem_filterMap.mp hz
      split at hy
      · rename_i a ha
        split at hwz
        · rename_i b hb
          have hyx : (a, x.2) = y := by simpa using hy
          have hzw : (b, w.2) = z := by simpa using hwz
          rw [← hyx, ← hzw] at hzy
          simp only at hzy
          apply h2.1
          rw [show x.1 = w.1 by rw [ha, hb, hzy]]
          exact List.mem_map_of_mem hw
        · cases hwz
      · cases hy

theorem marked_iff (r : Repo) (fs : FS) (name v : Str) : marked fs (r.location ++ [name]) v = true ↔ Hidden r fs name v := by
  unfold marked Hidden markerOf
  rw [show r.location ++ [name] ++ [c!".ignore" ++ v] = r.location ++ [name, c!".ignore" ++ v] by simp]
  cases mget fs (r.location ++ [name, c!".ignore" ++ v]) with
  | none => simp
  | some e => cases e <;> simp

theorem hidden_iff (v : Str) : FsRepo.hidden v = false ↔ Plain v := by
  unfold FsRepo.hidden Plain
  simp

theorem listed_iff {order : Order} (ho : Lists order) {fs : FS} (hn : (mkeys fs).Nodup) (r : Repo) {name : Str}
    (hname : Component name) (hf : mget fs (r.location ++ [name]) = some .dir) (v : Str) :
    Listed order r fs name v ↔ mget fs (dirOf r name v) = some .dir ∧ Plain v ∧ ¬ Hidden r fs name v := by
  unfold Listed packages
  rw [join_component _ hname]
  simp only [hf, ne_eq, not_true_eq_false, if_false]
  have hd : r.location ++ [name] ++ [v] = dirOf r name v := by simp [dirOf]
  constructor
  · rintro ⟨w, hw⟩
    obtain ⟨e, he, hew⟩ := List.mem_map.mp hw
    obtain ⟨hm, hcond⟩ := List.mem_filter.mp he
    simp only [Prod.mk.injEq] at hew
    obtain ⟨rfl, _⟩ := hew
    simp only [Bool.and_eq_true, Bool.not_eq_true'] at hcond
    obtain ⟨⟨h1, h2⟩, h3⟩ := hcond
    obtain ⟨a, b⟩ := e
    have : b = .dir := by simpa using h1
    subst this
    refine ⟨?_, (hidden_iff a).mp h2, ?_⟩
    · rw [← hd]; exact (children_mem ho hn _ _ _).mp hm
    · intro hh
      rw [(marked_iff r fs name a).mpr hh] at h3
      cases h3
  · rintro ⟨h1, h2, h3⟩
    refine ⟨Version.parse v, List.mem_map.mpr ⟨(v, .dir), List.mem_filter.mpr ⟨(children_mem ho hn _ _ _).mpr (hd ▸ h1), ?_⟩, rfl⟩⟩
    simp only [Bool.and_eq_true, Bool.not_eq_true']
    refine ⟨⟨by simp, (hidden_iff v).mpr h2⟩, ?_⟩
    cases hm : marked fs (r.location ++ [name]) v with
    | false => rfl
    | true => exact absurd ((marked_iff r fs name v).mp hm) h3

theorem listed_dir {order : Order} {fs : FS} {r : Repo} {name v : Str} (hname : Component name) (h : Listed order r fs name v) :
    mget fs (r.location ++ [name]) = some .dir := by
  obtain ⟨w, hw⟩ := h
  unfold packages at hw
  rw [join_component _ hname] at hw
  by_contra hne
  simp [hne] at hw

/-- The directories on the way to a path are directories. -/
def Reaches (fs : FS) (p : Path) : Prop := ∀ q, q <+: p → mget fs q = some .dir

theorem reaches_of_ok {fs : FS} (hok : Ok fs) {p : Path} (h : mget fs p = some .dir) : Reaches fs p := by
  intro q hq
  by_cases he : q = p
  · rw [he]; exact h
  · exact hok.parents p q hq he (by rw [h]; rfl)

theorem not_blocked {fs : FS} {p q : Path} (h : Reaches fs p) (hq : q <+: p) : blocked fs q = false := by
  unfold blocked
  rw [List.any_eq_false]
  intro x hx
  rw [h x (((List.mem_inits x q).mp hx).trans hq)]
  simp

theorem prefix_map {α β : Type} (f : α → β) {l : List α} {pre : List β} (h : pre <+: l.map f) :
    ∃ l', l' <+: l ∧ pre = l'.map f := by
  rw [List.prefix_iff_eq_take] at h
  exact ⟨l.take pre.length, List.take_prefix _ _, by rw [h, ← List.map_take, List.length_map, List.length_take]; congr 1; simp⟩

/-- Making directories changes nothing that is there, and nothing off the way. -/
theorem mkdir_pre {fs : FS} {p : Path} {pre : List Step} (h : pre <+: mkdirAll p) (q : Path) :
    mget (run fs pre) q = mget fs q ∨ (mget fs q = none ∧ q <+: p ∧ mget (run fs pre) q = some .dir) := by
  obtain ⟨l, hl, rfl⟩ := prefix_map _ h
  rw [FilesLemmas.mkdirs_get]
  by_cases hq : q ∈ l
  · rw [if_pos hq]
    cases hm : mget fs q with
    | some e => left; rfl
    | none => right; exact ⟨rfl, (List.mem_inits q p).mp (hl.subset hq), rfl⟩
  · rw [if_neg hq]
    exact Or.inl rfl

theorem mkdir_reaches {fs : FS} {p p' : Path} (h : Reaches fs p') (hp : p <+: p') {pre : List Step} (hpre : pre <+: mkdirAll p)
    (q : Path) : mget (run fs pre) q = mget fs q := by
  rcases mkdir_pre hpre q with h' | ⟨h1, h2, _⟩
  · exact h'
  · rw [h q (h2.trans hp)] at h1
    cases h1

theorem family_prefix (r : Repo) (name v : Str) : r.location ++ [name] <+: dirOf r name v := by
  unfold dirOf
  rw [show r.location ++ [name, v] = (r.location ++ [name]) ++ [v] by simp]
  exact List.prefix_append _ _

theorem marker_not_prefix (r : Repo) (name v name' : Str) : ¬ markerOf r name v <+: r.location ++ [name'] := by
  intro h
  have := h.length_le
  unfold markerOf at this
  simp at this

theorem markerPath_eq (r : Repo) (name : Str) {v : Str} (hv : Component v) :
    markerPath (r.location ++ [name]) v = some (markerOf r name v) := by
  unfold markerPath markerOf
  rw [if_neg hv.slash]
  simp

theorem target_eq {r : Repo} (hw : r.readOnly = false) {name v : Str} (hn : Component name) (hv : Component v) :
    target r name (some v) = .ok (r.location ++ [name], dirOf r name v, v) := by
  unfold target
  simp only [hw, valid_component hn, valid_component hv]
  rw [join_two _ hn hv, join_component _ hn]
  rfl

theorem ignore_eq {r : Repo} (hw : r.readOnly = false) (fs : FS) {name v : Str} (hn : Component name) (hv : Component v) (a : Bool) :
    ignore r fs name (some v) a = ignoreAt fs (r.location ++ [name]) (dirOf r name v) v a := by
  unfold ignore
  rw [target_eq hw hn hv]

theorem ignoreAt_paths (r : Repo) (fs : FS) {name v : Str} (hv : Component v) (dir : Path) (a : Bool) :
    ∃ m, (ignoreAt fs (r.location ++ [name]) dir v a).1 = [] ∨ ((ignoreAt fs (r.location ++ [name]) dir v a).1 =
      mkdirAll (r.location ++ [name]) ++ m ∧ (m = [] ∨ m = [.create (markerOf r name v)] ∧ mget fs (markerOf r name v) = none)) := by
  unfold ignoreAt
  rw [markerPath_eq r name hv]
  split
  · exact ⟨[], Or.inl rfl⟩
  · split
    · exact ⟨[], Or.inl rfl⟩
    · simp only
      split
      · exact ⟨[], Or.inr ⟨by simp, Or.inl rfl⟩⟩
      · rename_i hm
        exact ⟨_, Or.inr ⟨rfl, Or.inr ⟨rfl, by simpa using hm⟩⟩⟩

/-- What ignoring can change, wherever it is stopped. -/
theorem ignoreAt_pre (r : Repo) (fs : FS) {name v : Str} (hv : Component v) (dir : Path) (a : Bool) {pre : List Step}
    (h : pre <+: (ignoreAt fs (r.location ++ [name]) dir v a).1) (q : Path) :
    mget (run fs pre) q = mget fs q ∨ (mget fs q = none ∧ q <+: r.location ++ [name] ∧ mget (run fs pre) q = some .dir) ∨
      (mget fs q = none ∧ q = markerOf r name v ∧ mget (run fs pre) q = some (.file [])) := by
  obtain ⟨m, he | ⟨he, hm⟩⟩ := ignoreAt_paths r fs (name := name) hv dir a
  · rw [he] at h
    rw [List.prefix_nil.mp h]
    exact Or.inl rfl
  · rw [he] at h
    rcases prefix_append_cases h with h | ⟨t, rfl, ht⟩
    · rcases mkdir_pre h q with h | h
      · exact Or.inl h
      · exact Or.inr (Or.inl h)
    · rw [run_append]
      have hmk := mkdir_pre (fs := fs) (List.prefix_refl (mkdirAll (r.location ++ [name]))) q
      have hnil : mget (run (run fs (mkdirAll (r.location ++ [name]))) []) q = mget (run fs (mkdirAll (r.location ++ [name]))) q := rfl
      rcases hm with rfl | ⟨rfl, hnone⟩
      · rw [List.prefix_nil.mp ht, hnil]
        rcases hmk with h | h
        · exact Or.inl h
        · exact Or.inr (Or.inl h)
      · rcases t with _ | ⟨x, t⟩
        · rw [hnil]
          rcases hmk with h | h
          · exact Or.inl h
          · exact Or.inr (Or.inl h)
        · obtain ⟨rfl, htn⟩ := List.cons_prefix_cons.mp ht
          rw [List.prefix_nil.mp htn]
          have hc : mget (run (run fs (mkdirAll (r.location ++ [name]))) [.create (markerOf r name v)]) q =
              if q = markerOf r name v then some (.file []) else mget (run fs (mkdirAll (r.location ++ [name]))) q := by
            simp only [run, List.foldl_cons, List.foldl_nil, Step.apply, mget_mset]
          rw [hc]
          by_cases hq : q = markerOf r name v
          · rw [if_pos hq]
            exact Or.inr (Or.inr ⟨hq ▸ hnone, hq, rfl⟩)
          · rw [if_neg hq]
            rcases hmk with h | h
            · exact Or.inl h
            · exact Or.inr (Or.inl h)

/-- Ignoring a version that is there. -/
theorem ignore_there {r : Repo} (hw : r.readOnly = false) {fs : FS} {name v : Str} (hn : Component name) (hv : Component v)
    (hd : Reaches fs (dirOf r name v)) (a : Bool) :
    (ignore r fs name (some v) a).2 = .ok (if (mget fs (markerOf r name v)).isSome then 0 else 1) ∧
    ∀ q, mget (run fs (ignore r fs name (some v) a).1) q =
      if q = markerOf r name v then some ((mget fs q).getD (.file [])) else mget fs q := by
  rw [ignore_eq hw fs hn hv]
  unfold ignoreAt
  have hdir : mget fs (dirOf r name v) = some .dir := hd _ List.prefix_rfl
  rw [not_blocked hd (family_prefix r name v), markerPath_eq r name hv]
  simp only [hdir, bne_self_eq_false, Bool.and_false, Bool.false_eq_true, if_false]
  by_cases hm : (mget fs (markerOf r name v)).isSome = true
  · rw [if_pos hm, if_pos hm]
    refine ⟨rfl, fun q => ?_⟩
    rw [mkdir_reaches hd (family_prefix r name v) List.prefix_rfl]
    split
    · rename_i hq
      subst hq
      obtain ⟨e, he⟩ := Option.isSome_iff_exists.mp hm
      rw [he]
      rfl
    · rfl
  · rw [if_neg hm, if_neg hm]
    refine ⟨rfl, fun q => ?_⟩
    simp only
    rw [run_append]
    have hc : mget (run (run fs (mkdirAll (r.location ++ [name]))) [.create (markerOf r name v)]) q =
        if q = markerOf r name v then some (.file []) else mget (run fs (mkdirAll (r.location ++ [name]))) q := by
      simp only [run, List.foldl_cons, List.foldl_nil, Step.apply, mget_mset]
    rw [hc, mkdir_reaches hd (family_prefix r name v) List.prefix_rfl]
    split
    · rename_i hq
      subst hq
      rw [show mget fs (markerOf r name v) = none by simpa using hm]
      rfl
    · rfl

/-- Unignoring a version that is there. -/
theorem unignore_there {r : Repo} (hw : r.readOnly = false) {fs : FS} {name v : Str} (hn : Component name) (hv : Component v)
    (hd : Reaches fs (dirOf r name v)) (hm : ∀ e, mget fs (markerOf r name v) = some e → ∃ c, e = .file c) :
    (unignore r fs name (some v)).2 = .ok (if (mget fs (markerOf r name v)).isSome then 1 else 0) ∧
    ∀ q, mget (run fs (unignore r fs name (some v)).1) q = if q = markerOf r name v then none else mget fs q := by
  unfold unignore
  rw [target_eq hw hn hv]
  simp only
  rw [markerPath_eq r name hv]
  simp only
  have hdir : mget fs (dirOf r name v) = some .dir := hd _ List.prefix_rfl
  have hlast : (markerOf r name v).dropLast = r.location ++ [name] := by
    unfold markerOf
    rw [show r.location ++ [name, c!".ignore" ++ v] = (r.location ++ [name]) ++ [c!".ignore" ++ v] by simp]
    rw [List.dropLast_concat]
  have hrem : removeFile fs (markerOf r name v) =
      .ok (if (mget fs (markerOf r name v)).isSome then [.remove (markerOf r name v)] else []) := by
    unfold removeFile
    rw [hlast, not_blocked hd (family_prefix r name v)]
    simp only [Bool.false_eq_true, if_false]
    cases he : mget fs (markerOf r name v) with
    | none => rfl
    | some e =>
      obtain ⟨c, rfl⟩ := hm e he
      rfl
  rw [hrem]
  simp only [hdir, ne_eq, not_true_eq_false, if_false]
  by_cases h : (mget fs (markerOf r name v)).isSome = true
  · rw [if_pos h, if_pos h]
    refine ⟨rfl, fun q => ?_⟩
    simp only [run, List.foldl_cons, List.foldl_nil, Step.apply, mget_mdel]
  · rw [if_neg h, if_neg h]
    refine ⟨rfl, fun q => ?_⟩
    show mget fs q = _
    split
    · rename_i hq
      subst hq
      simpa using h
    · rfl

theorem marker_inj {r : Repo} {n v n' v' : Str} (h : markerOf r n v = markerOf r n' v') : n = n' ∧ v = v' := by
  unfold markerOf at h
  have := List.append_cancel_left h
  simp only [List.cons.injEq, and_true] at this
  exact ⟨this.1, List.append_cancel_left this.2⟩

/-- All that unignoring does. -/
theorem unignore_get {r : Repo} (hw : r.readOnly = false) (fs : FS) {name v : Str} (hn : Component name) (hv : Component v) (q : Path) :
    mget (run fs (unignore r fs name (some v)).1) q = mget fs q ∨
      (q = markerOf r name v ∧ mget (run fs (unignore r fs name (some v)).1) q = none) := by
  unfold unignore
  rw [target_eq hw hn hv]
  simp only
  rw [markerPath_eq r name hv]
  simp only
  have key : ∀ steps, removeFile fs (markerOf r name v) = .ok steps → steps = [] ∨ steps = [.remove (markerOf r name v)] := by
    intro steps h
    unfold removeFile at h
    split at h
    · cases h
    · split at h
      · exact Or.inl (Except.ok.inj h).symm
      · cases h
      · exact Or.inr (Except.ok.inj h).symm
  cases h : removeFile fs (markerOf r name v) with
  | error e => exact Or.inl rfl
  | ok steps =>
    simp only
    rcases key steps h with rfl | rfl
    · exact Or.inl rfl
    · have : mget (run fs [.remove (markerOf r name v)]) q = if q = markerOf r name v then none else mget fs q := by
        simp only [run, List.foldl_cons, List.foldl_nil, Step.apply, mget_mdel]
      rw [this]
      by_cases hq : q = markerOf r name v
      · rw [if_pos hq]; exact Or.inr ⟨hq, rfl⟩
      · rw [if_neg hq]; exact Or.inl rfl

/-- What a history keeps. -/
structure Inv (r : Repo) (fs : FS) (name v : Str) : Prop where
  nodup : (mkeys fs).Nodup
  files : MarkersAreFiles r fs
  reaches : Reaches fs (dirOf r name v)

/-- What an operation does to the version that it is about. -/
def opHides : Op → Prop
  | .ignore _ _ _ => True
  | .unignore _ _ => False

theorem op_step {r : Repo} (hw : r.readOnly = false) {fs : FS} {name v : Str} (hn : Component name) (hv : Component v)
    (hi : Inv r fs name v) (o : Op) (ho : o.Ok) :
    Inv r (o.run r fs) name v ∧
    (Hidden r (o.run r fs) name v ↔ if o.on = (name, v) then opHides o else Hidden r fs name v) := by
  cases o with
  | ignore n w a =>
    have hpre := fun q => ignoreAt_pre r fs (name := n) ho.2 (dirOf r n w) a
      (List.prefix_refl (ignoreAt fs (r.location ++ [n]) (dirOf r n w) w a).1) q
    have heq : ignore r fs n (some w) a = ignoreAt fs (r.location ++ [n]) (dirOf r n w) w a := ignore_eq hw fs ho.1 ho.2 a
    rw [← heq] at hpre
    simp only [Op.on] at hpre
    refine ⟨⟨nodup_run hi.nodup _, ?_, ?_⟩, ?_⟩
    · intro n' w' e he
      change mget (run fs (ignore r fs n (some w) a).1) _ = _ at he
      rcases hpre (markerOf r n' w') with h | ⟨_, h, _⟩ | ⟨_, _, h⟩
      · rw [h] at he; exact hi.files _ _ _ he
      · exact absurd h (marker_not_prefix _ _ _ _)
      · rw [h] at he
        exact ⟨[], (Option.some.inj he).symm⟩
    · intro q hq
      have := hi.reaches q hq
      show mget (run fs (ignore r fs n (some w) a).1) _ = _
      rcases hpre q with h | ⟨h, _⟩ | ⟨h, _⟩
      · rw [h]; exact this
      · rw [this] at h; cases h
      · rw [this] at h; cases h
    · by_cases hon : (n, w) = (name, v)
      · simp only [Prod.mk.injEq] at hon
        obtain ⟨rfl, rfl⟩ := hon
        rw [if_pos (show Op.on (.ignore n w a) = (n, w) from rfl)]
        refine ⟨fun _ => trivial, fun _ => ?_⟩
        unfold Hidden
        show ∃ c, mget (run fs (ignore r fs n (some w) a).1) _ = _
        rw [(ignore_there hw hn hv hi.reaches a).2, if_pos rfl]
        cases he : mget fs (markerOf r n w) with
        | none => exact ⟨[], rfl⟩
        | some e =>
          obtain ⟨c, rfl⟩ := hi.files _ _ _ he
          exact ⟨c, rfl⟩
      · rw [if_neg (show Op.on (.ignore n w a) ≠ (name, v) from hon)]
        unfold Hidden
        have : mget ((Op.ignore n w a).run r fs) (markerOf r name v) = mget fs (markerOf r name v) := by
          show mget (run fs (ignore r fs n (some w) a).1) _ = _
          rcases hpre (markerOf r name v) with h | ⟨_, h, _⟩ | ⟨_, h, _⟩
          · exact h
          · exact absurd h (marker_not_prefix _ _ _ _)
          · obtain ⟨rfl, rfl⟩ := marker_inj h
            exact absurd rfl hon
        rw [this]
  | unignore n w =>
    have hget := unignore_get hw fs ho.1 ho.2
    simp only [Op.on] at hget
    refine ⟨⟨nodup_run hi.nodup _, ?_, ?_⟩, ?_⟩
    · intro n' w' e he
      change mget (run fs (unignore r fs n (some w)).1) _ = _ at he
      rcases hget (markerOf r n' w') with h | ⟨_, h⟩
      · rw [h] at he; exact hi.files _ _ _ he
      · rw [h] at he; cases he
    · intro q hq
      have := hi.reaches q hq
      show mget (run fs (unignore r fs n (some w)).1) _ = _
      rcases hget q with h | ⟨h, _⟩
      · rw [h]; exact this
      · rw [h] at this
        obtain ⟨c, hc⟩ := hi.files _ _ _ this
        cases hc
    · by_cases hon : (n, w) = (name, v)
      · simp only [Prod.mk.injEq] at hon
        obtain ⟨rfl, rfl⟩ := hon
        rw [if_pos (show Op.on (.unignore n w) = (n, w) from rfl)]
        refine ⟨?_, fun h => h.elim⟩
        rintro ⟨c, hc⟩
        change mget (run fs (unignore r fs n (some w)).1) _ = _ at hc
        rw [(unignore_there hw hn hv hi.reaches (hi.files n w)).2, if_pos rfl] at hc
        cases hc
      · rw [if_neg (show Op.on (.unignore n w) ≠ (name, v) from hon)]
        unfold Hidden
        have : mget ((Op.unignore n w).run r fs) (markerOf r name v) = mget fs (markerOf r name v) := by
          show mget (run fs (unignore r fs n (some w)).1) _ = _
          rcases hget (markerOf r name v) with h | ⟨h, _⟩
          · exact h
          · obtain ⟨rfl, rfl⟩ := marker_inj h
            exact absurd rfl hon
        rw [this]

theorem lastHides_cons (name v : Str) (start : Prop) (o : Op) (ops : List Op) :
    lastHides name v start (o :: ops) ↔ lastHides name v (if o.on = (name, v) then opHides o else start) ops := by
  unfold lastHides
  by_cases h : o.on = (name, v)
  · rw [List.filter_cons_of_pos (by simpa using h), if_pos h]
    cases hl : (ops.filter fun o => o.on = (name, v)) with
    | nil => cases o <;> simp [opHides]
    | cons x l =>
      rw [List.getLast?_cons_cons]
      cases hg : (x :: l).getLast? with
      | none => simp at hg
      | some y => cases y <;> rfl
  · rw [List.filter_cons_of_neg (by simpa using h), if_neg h]

theorem ok_of {fs : FS} (h1 : (mkeys fs).Nodup) (h2 : ∀ e ∈ fs, ∀ q ∈ e.1.inits, q ≠ e.1 → mget fs q = some .dir) : Ok fs := by
  refine ⟨h1, ?_⟩
  intro p q hq hne hs
  obtain ⟨v, hv⟩ := Option.isSome_iff_exists.mp hs
  exact h2 _ (mget_some_mem hv) q ((List.mem_inits q p).mpr hq) hne

theorem files_of {r : Repo} {fs : FS} (h : ∀ e ∈ fs, (∃ n s, e.1 = r.location ++ [n, s] ∧ c!".ignore".isPrefixOf s) → ∃ c, e.2 = .file c) :
    MarkersAreFiles r fs := by
  intro n v e he
  exact h _ (mget_some_mem he) ⟨n, _, rfl, List.isPrefixOf_iff_prefix.mpr (List.prefix_append _ _)⟩

end FsRepoLemmas
open FsRepoLemmas

/-! ## C126: ignoring -/

/-- C126: the packages of a family are its directories that are not hidden, each once, with the version that the name
spells. -/
theorem C126_listed (order : Order) (ho : Lists order) (r : Repo) (fs : FS) (hok : Ok fs) (name : Str) (hn : Component name) :
    (∀ v w, (v, w) ∈ packages order r fs name ↔
      mget fs (dirOf r name v) = some .dir ∧ Plain v ∧ ¬ Hidden r fs name v ∧ w = Version.parse v) ∧
    ((packages order r fs name).map Prod.fst).Nodup := by
  have hw : ∀ v w, (v, w) ∈ packages order r fs name → w = Version.parse v := by
    intro v w h
    unfold packages at h
    simp only at h
    split at h
    · cases h
    · obtain ⟨e, _, he⟩ := List.mem_map.mp h
      simp only [Prod.mk.injEq] at he
      rw [← he.1, ← he.2]
  constructor
  · intro v w
    constructor
    · intro h
      have hl : Listed order r fs name v := ⟨w, h⟩
      have := (listed_iff ho hok.nodup r hn (listed_dir hn hl) v).mp hl
      exact ⟨this.1, this.2.1, this.2.2, hw v w h⟩
    · rintro ⟨h1, h2, h3, rfl⟩
      have hf := reaches_of_ok hok h1 _ (family_prefix r name v)
      obtain ⟨w, hw'⟩ := (listed_iff ho hok.nodup r hn hf v).mpr ⟨h1, h2, h3⟩
      rw [← hw v w hw']
      exact hw'
  · unfold packages
    simp only
    split
    · exact List.nodup_nil
    · rw [List.map_map]
      exact List.Nodup.sublist (List.filter_sublist.map _) (children_nodup ho hok.nodup _)

/-- C126: ignoring a version that is there hides it and changes nothing but its marker; the result says whether it was
hidden before. -/
theorem C126_hides_partial (order : Order) (ho : Lists order) (r : Repo) (hw : r.readOnly = false) (fs : FS) (hok : Ok fs)
    (hm : MarkersAreFiles r fs) (name v : Str) (hn : Component name) (hv : Component v)
    (hd : mget fs (dirOf r name v) = some .dir) (allowMissing : Bool) :
    ¬ Listed order r (run fs (ignore r fs name (some v) allowMissing).1) name v ∧
    (∀ q, q ≠ markerOf r name v → mget (run fs (ignore r fs name (some v) allowMissing).1) q = mget fs q) ∧
    ((ignore r fs name (some v) allowMissing).2 = .ok 1 ∧ ¬ Hidden r fs name v ∨
      (ignore r fs name (some v) allowMissing).2 = .ok 0 ∧ Hidden r fs name v) := by
  obtain ⟨h1, h2⟩ := ignore_there hw hn hv (reaches_of_ok hok hd) allowMissing
  refine ⟨?_, ?_, ?_⟩
  · intro hl
    have := (listed_iff ho (nodup_run hok.nodup _) r hn (listed_dir hn hl) v).mp hl
    apply this.2.2
    unfold Hidden
    rw [h2, if_pos rfl]
    cases he : mget fs (markerOf r name v) with
    | none => exact ⟨_, rfl⟩
    | some e =>
      obtain ⟨c, rfl⟩ := hm _ _ _ he
      exact ⟨c, rfl⟩
  · intro q hq
    rw [h2, if_neg hq]
  · rw [h1]
    unfold Hidden
    cases he : mget fs (markerOf r name v) with
    | none => left; simp
    | some e =>
      obtain ⟨c, rfl⟩ := hm _ _ _ he
      right; simp

/-- C126: a version that is not there is reported as missing, and nothing is done. -/
theorem C126_missing (r : Repo) (hw : r.readOnly = false) (fs : FS) (name v : Str) (hn : Component name) (hv : Component v)
    (hd : mget fs (dirOf r name v) ≠ some .dir) : ignore r fs name (some v) false = ([], .ok (-1)) := by
  rw [ignore_eq hw fs hn hv]
  unfold ignoreAt
  rw [if_pos]
  simpa using hd

/-- C126: unignoring a version shows it again and changes nothing but its marker. -/
theorem C126_shows_partial (order : Order) (ho : Lists order) (r : Repo) (hw : r.readOnly = false) (fs : FS) (hok : Ok fs)
    (hm : MarkersAreFiles r fs) (name v : Str) (hn : Component name) (hv : Component v) (hp : Plain v)
    (hd : mget fs (dirOf r name v) = some .dir) :
    Listed order r (run fs (unignore r fs name (some v)).1) name v ∧
    (∀ q, q ≠ markerOf r name v → mget (run fs (unignore r fs name (some v)).1) q = mget fs q) ∧
    ((unignore r fs name (some v)).2 = .ok 1 ∧ Hidden r fs name v ∨
      (unignore r fs name (some v)).2 = .ok 0 ∧ ¬ Hidden r fs name v) := by
  obtain ⟨h1, h2⟩ := unignore_there hw hn hv (reaches_of_ok hok hd) (hm name v)
  have hne : ∀ q, q <+: dirOf r name v → q ≠ markerOf r name v := by
    rintro q hq rfl
    have := reaches_of_ok hok hd _ hq
    obtain ⟨c, hc⟩ := hm _ _ _ this
    cases hc
  refine ⟨?_, ?_, ?_⟩
  · refine (listed_iff ho (nodup_run hok.nodup _) r hn ?_ v).mpr ⟨?_, hp, ?_⟩
    · rw [h2, if_neg (hne _ (family_prefix r name v))]
      exact reaches_of_ok hok hd _ (family_prefix r name v)
    · rw [h2, if_neg (hne _ List.prefix_rfl)]
      exact hd
    · rintro ⟨c, hc⟩
      rw [h2, if_pos rfl] at hc
      cases hc
  · intro q hq
    rw [h2, if_neg hq]
  · rw [h1]
    unfold Hidden
    cases he : mget fs (markerOf r name v) with
    | none => right; simp
    | some e =>
      obtain ⟨c, rfl⟩ := hm _ _ _ he
      left; simp

/-- C126: after ignoring and unignoring, everything is as it was before. -/
theorem C126_back_partial (r : Repo) (hw : r.readOnly = false) (fs : FS) (hok : Ok fs)
    (hm : MarkersAreFiles r fs) (name v : Str) (hn : Component name) (hv : Component v)
    (hd : mget fs (dirOf r name v) = some .dir) (hh : ¬ Hidden r fs name v) (allowMissing : Bool) (q : Path) :
    mget (after r fs [.ignore name v allowMissing, .unignore name v]) q = mget fs q := by
  have hr := reaches_of_ok hok hd
  obtain ⟨_, h2⟩ := ignore_there hw hn hv hr allowMissing
  have hnone : mget fs (markerOf r name v) = none := by
    cases he : mget fs (markerOf r name v) with
    | none => rfl
    | some e =>
      obtain ⟨c, rfl⟩ := hm _ _ _ he
      exact absurd ⟨c, he⟩ hh
  have hne : ∀ q, q <+: dirOf r name v → q ≠ markerOf r name v := by
    rintro q hq rfl
    rw [hr _ hq] at hnone
    cases hnone
  have hr' : Reaches (run fs (ignore r fs name (some v) allowMissing).1) (dirOf r name v) := by
    intro q hq
    rw [h2, if_neg (hne q hq)]
    exact hr q hq
  obtain ⟨_, h4⟩ := unignore_there hw hn hv hr' (by
    intro e he
    rw [h2, if_pos rfl, hnone] at he
    exact ⟨[], (Option.some.inj he).symm⟩)
  show mget (run (run fs (ignore r fs name (some v) allowMissing).1) (unignore r (run fs (ignore r fs name (some v) allowMissing).1)
    name (some v)).1) q = _
  rw [h4]
  split
  · rename_i hq
    rw [hq, hnone]
  · rename_i hq
    rw [h2, if_neg hq]

/-- C126: after any sequence of ignoring and unignoring, a version is among the packages exactly if the last operation on it
did not hide it; its directory is still there. -/
theorem C126_history_partial (order : Order) (ho : Lists order) (r : Repo) (hw : r.readOnly = false) (fs : FS) (hok : Ok fs)
    (hm : MarkersAreFiles r fs) (name v : Str) (hn : Component name) (hv : Component v) (hp : Plain v)
    (hd : mget fs (dirOf r name v) = some .dir) (ops : List Op) (hops : ∀ o ∈ ops, o.Ok) :
    (Listed order r (after r fs ops) name v ↔ ¬ lastHides name v (Hidden r fs name v) ops) ∧
    mget (after r fs ops) (dirOf r name v) = some .dir := by
  have hi : Inv r fs name v := ⟨hok.nodup, hm, reaches_of_ok hok hd⟩
  clear hok hm hd
  unfold after
  induction ops generalizing fs with
  | nil =>
    refine ⟨?_, hi.reaches _ List.prefix_rfl⟩
    rw [List.foldl_nil, listed_iff ho hi.nodup r hn (hi.reaches _ (family_prefix r name v)) v]
    simp only [lastHides, List.filter_nil, List.getLast?_nil]
    exact ⟨fun h => h.2.2, fun h => ⟨hi.reaches _ List.prefix_rfl, hp, h⟩⟩
  | cons o ops ih =>
    obtain ⟨h1, h2⟩ := op_step hw hn hv hi o (hops o List.mem_cons_self)
    have := ih (o.run r fs) (fun x hx => hops x (List.mem_cons_of_mem _ hx)) h1
    rw [List.foldl_cons, lastHides_cons]
    refine ⟨this.1.trans ?_, this.2⟩
    rw [propext h2]

namespace FsRepoLemmas

theorem open_not_blocked {fs : FS} {p : Path} (h : ∀ q, q <+: p → mget fs q = none ∨ mget fs q = some .dir) :
    blocked fs p = false := by
  unfold blocked
  rw [List.any_eq_false]
  intro x hx
  rcases h x ((List.mem_inits x p).mp hx) with h | h <;> rw [h] <;> simp

end FsRepoLemmas

/-- C126: a version that is not there yet can be hidden if that is asked for: the marker and the directories on the way to
it are made, and nothing else is changed.  Then it is not among the packages, whatever is put into its directory. -/
theorem C126_early_partial (order : Order) (ho : Lists order) (r : Repo) (hw : r.readOnly = false) (fs : FS) (hok : Ok fs)
    (hm : MarkersAreFiles r fs) (name v : Str) (hn : Component name) (hv : Component v)
    (hopen : ∀ q, q <+: r.location ++ [name] → mget fs q = none ∨ mget fs q = some .dir) :
    Hidden r (run fs (ignore r fs name (some v) true).1) name v ∧
    (∀ q, mget (run fs (ignore r fs name (some v) true).1) q = mget fs q ∨
      mget fs q = none ∧ (q <+: r.location ++ [name] ∨ q = markerOf r name v)) ∧
    ((ignore r fs name (some v) true).2 = .ok 1 ∧ ¬ Hidden r fs name v ∨
      (ignore r fs name (some v) true).2 = .ok 0 ∧ Hidden r fs name v) ∧
    ∀ later : List Step, (∀ s ∈ later, dirOf r name v <+: path s) →
      ¬ Listed order r (run fs ((ignore r fs name (some v) true).1 ++ later)) name v := by
  have hb := open_not_blocked hopen
  have hpre := ignoreAt_pre r fs (name := name) hv (dirOf r name v) true List.prefix_rfl
  rw [← ignore_eq hw fs hn hv] at hpre
  have key : Hidden r (run fs (ignore r fs name (some v) true).1) name v ∧
      ((ignore r fs name (some v) true).2 = .ok 1 ∧ ¬ Hidden r fs name v ∨
        (ignore r fs name (some v) true).2 = .ok 0 ∧ Hidden r fs name v) := by
    rw [ignore_eq hw fs hn hv]
    unfold ignoreAt
    rw [hb, markerPath_eq r name hv]
    simp only [Bool.not_true, Bool.false_and, Bool.false_eq_true, if_false]
    by_cases hs : (mget fs (markerOf r name v)).isSome = true
    · rw [if_pos hs]
      obtain ⟨e, he⟩ := Option.isSome_iff_exists.mp hs
      obtain ⟨c, rfl⟩ := hm _ _ _ he
      refine ⟨⟨c, ?_⟩, Or.inr ⟨rfl, c, he⟩⟩
      simp only
      rw [mkdirAll_get, if_neg (marker_not_prefix r name v name)]
      exact he
    · rw [if_neg hs]
      refine ⟨⟨[], ?_⟩, Or.inl ⟨rfl, ?_⟩⟩
      · simp only
        rw [run_append]
        simp only [run, List.foldl_cons, List.foldl_nil, Step.apply, mget_mset, if_true]
      · rintro ⟨c, hc⟩
        rw [hc] at hs
        exact hs rfl
  refine ⟨key.1, ?_, key.2, ?_⟩
  · intro q
    rcases hpre q with h | ⟨h1, h2, _⟩ | ⟨h1, h2, _⟩
    · exact Or.inl h
    · exact Or.inr ⟨h1, Or.inl h2⟩
    · exact Or.inr ⟨h1, Or.inr h2⟩
  · intro later hl hlist
    have := (listed_iff ho (nodup_run hok.nodup _) r hn (listed_dir hn hlist) v).mp hlist
    apply this.2.2
    obtain ⟨c, hc⟩ := key.1
    refine ⟨c, ?_⟩
    rw [run_append, run_other _ _ (fun s hs he => ?_)]
    · exact hc
    · have hlen := hl s hs
      rw [he] at hlen
      obtain ⟨t, ht⟩ := hlen
      unfold dirOf markerOf at ht
      rw [List.append_assoc] at ht
      have := List.append_cancel_left ht
      simp only [List.cons_append, List.nil_append, List.cons.injEq, true_and] at this
      have := congrArg List.length this.1
      simp at this
      omega

/-- C126: unignoring a version that is not there removes its marker, and reports that the version is missing. -/
theorem C126_absent_partial (r : Repo) (hw : r.readOnly = false) (fs : FS)
    (hm : MarkersAreFiles r fs) (name v : Str) (hn : Component name) (hv : Component v)
    (hopen : ∀ q, q <+: r.location ++ [name] → mget fs q = none ∨ mget fs q = some .dir)
    (hd : mget fs (dirOf r name v) ≠ some .dir) :
    (unignore r fs name (some v)).2 = .ok (-1) ∧
    ∀ q, mget (run fs (unignore r fs name (some v)).1) q = if q = markerOf r name v then none else mget fs q := by
  have hlast : (markerOf r name v).dropLast = r.location ++ [name] := by
    unfold markerOf
    rw [show r.location ++ [name, c!".ignore" ++ v] = (r.location ++ [name]) ++ [c!".ignore" ++ v] by simp]
    rw [List.dropLast_concat]
  have hrem : removeFile fs (markerOf r name v) =
      .ok (if (mget fs (markerOf r name v)).isSome then [.remove (markerOf r name v)] else []) := by
    unfold removeFile
    rw [hlast, open_not_blocked hopen]
    simp only [Bool.false_eq_true, if_false]
    cases he : mget fs (markerOf r name v) with
    | none => rfl
    | some e =>
      obtain ⟨c, rfl⟩ := hm _ _ e he
      rfl
  unfold unignore
  rw [target_eq hw hn hv]
  simp only
  rw [markerPath_eq r name hv]
  simp only
  rw [hrem]
  simp only [ne_eq, hd, not_false_eq_true, if_true]
  refine ⟨trivial, fun q => ?_⟩
  by_cases h : (mget fs (markerOf r name v)).isSome = true
  · rw [if_pos h]
    simp only [run, List.foldl_cons, List.foldl_nil, Step.apply, mget_mdel]
  · rw [if_neg h]
    show mget fs q = _
    split
    · rename_i hq
      subst hq
      simpa using h
    · rfl

/-- A repository with two versions of one package, one of them hidden. -/
def depot : FS :=
  [([], .dir), ([c!"repo"], .dir), ([c!"repo", c!"maya"], .dir), ([c!"repo", c!"maya", c!"1.0"], .dir),
   ([c!"repo", c!"maya", c!"1.0", c!"package.py"], .file c!"name = 'maya'"), ([c!"repo", c!"maya", c!"2.0"], .dir),
   ([c!"repo", c!"maya", c!"2.0", c!"package.py"], .file c!"name = 'maya'"), ([c!"repo", c!"maya", c!".ignore2.0"], .file [])]

/-- The repository there. -/
def depotRepo : Repo := ⟨[c!"repo"], false⟩

/-- C126 is false when a directory has the name of a marker: the version is reported as hidden already, and is still among
the packages. -/
theorem C126_directory_false :
    ∃ (fs : FS) (r : Repo) (name v : Str), Ok fs ∧ r.readOnly = false ∧ Component name ∧ Component v ∧
      (ignore r fs name (some v) false).2 = .ok 0 ∧ Listed id r (run fs (ignore r fs name (some v) false).1) name v := by
  refine ⟨[([], .dir), ([c!"repo"], .dir), ([c!"repo", c!"maya"], .dir), ([c!"repo", c!"maya", c!"1.0"], .dir),
    ([c!"repo", c!"maya", c!".ignore1.0"], .dir)], depotRepo, c!"maya", c!"1.0", ok_of (by decide) (by decide), rfl,
    ⟨by decide, by decide, by decide⟩, ⟨by decide, by decide, by decide⟩, by decide, Version.parse c!"1.0", by decide⟩

example : Ok depot := ok_of (by decide) (by decide)

example : (∀ q, q <+: depotRepo.location ++ [c!"maya"] → mget depot q = none ∨ mget depot q = some .dir) ∧
    mget depot (dirOf depotRepo c!"maya" c!"3.0") ≠ some .dir ∧ (ignore depotRepo depot c!"maya" (some c!"3.0") true).2 = .ok 1 := by
  refine ⟨fun q hq => ?_, by decide, by decide⟩
  have : ∀ q ∈ (depotRepo.location ++ [c!"maya"]).inits, mget depot q = none ∨ mget depot q = some .dir := by decide
  exact this q ((List.mem_inits _ _).mpr hq)

example : MarkersAreFiles depotRepo depot := by
  intro n v e he
  have key : ∀ x ∈ depot, x.2 = .dir → ∀ a b, x.1 = [c!"repo", a, b] → c!".ignore".isPrefixOf b = false := by
    intro x hx hd a b hab
    have : ∀ x ∈ depot, x.2 = .dir → (x.1.drop 2).all (fun b => !c!".ignore".isPrefixOf b) = true := by decide
    have := this x hx hd
    rw [hab] at this
    simpa using this
  have hm := mget_some_mem he
  have hlen : ∀ x ∈ depot, x.2 = .dir ∨ ∃ c, x.2 = .file c := by
    intro x hx
    have : ∀ x ∈ depot, x.2 ≠ .special ∧ (match x.2 with | .link _ => false | _ => true) = true := by decide
    have := this x hx
    cases hx2 : x.2 with
    | dir => exact Or.inl rfl
    | file c => exact Or.inr ⟨c, rfl⟩
    | link t => rw [hx2] at this; exact absurd this.2 (by simp)
    | special => exact absurd hx2 this.1
  rcases hlen _ hm with h | h
  · have := key _ hm h n (c!".ignore" ++ v) rfl
    simp at this
  · exact h

example : (packages id depotRepo depot c!"maya").map Prod.fst = [c!"1.0"] := by decide
example : Plain c!"1.0" ∧ Plain c!"2.0" := ⟨⟨by decide, by decide⟩, ⟨by decide, by decide⟩⟩
example : (packages id depotRepo (after depotRepo depot [.ignore c!"maya" c!"1.0" false, .unignore c!"maya" c!"2.0"]) c!"maya").map Prod.fst =
    [c!"2.0"] := by decide

/-! ## C127: removing a version -/

namespace FsRepoLemmas

theorem marker_not_below (r : Repo) (name v : Str) : ¬ dirOf r name v <+: markerOf r name v := by
  rintro ⟨t, ht⟩
  unfold dirOf markerOf at ht
  rw [List.append_assoc] at ht
  have := List.append_cancel_left ht
  simp only [List.cons_append, List.nil_append, List.cons.injEq, true_and] at this
  have := congrArg List.length this.1
  simp at this
  omega

theorem marker_dropLast (r : Repo) (name v : Str) : (markerOf r name v).dropLast = r.location ++ [name] := by
  unfold markerOf
  rw [show r.location ++ [name, c!".ignore" ++ v] = (r.location ++ [name]) ++ [c!".ignore" ++ v] by simp]
  rw [List.dropLast_concat]

theorem dir_not_family (r : Repo) (name v : Str) : ¬ dirOf r name v <+: r.location ++ [name] := by
  intro h
  have := h.length_le
  unfold dirOf at this
  simp at this

/-- The steps of a removal of a version that is there. -/
theorem remove_steps {order : Order} (ho : Lists order) {r : Repo} (hw : r.readOnly = false) {fs : FS} {name v : Str}
    (hn : Component name) (hv : Component v) (hd : Reaches fs (dirOf r name v))
    (hm : ∀ e, mget fs (markerOf r name v) = some e → ∃ c, e = .file c) :
    remove order r fs name (some v) =
      ((ignore r fs name (some v) false).1 ++ (removeTree order (run fs (ignore r fs name (some v) false).1) (dirOf r name v) ++
        [.remove (markerOf r name v)]), .ok true) := by
  obtain ⟨h1, h2⟩ := ignore_there hw hn hv hd false
  unfold remove
  rw [target_eq hw hn hv]
  simp only
  have heq := ignore_eq hw fs hn hv false
  rw [← heq]
  generalize ignore r fs name (some v) false = ig at h1 h2
  obtain ⟨s, res⟩ := ig
  simp only at h1 h2
  subst h1
  simp only
  rw [if_neg (by split <;> decide)]
  unfold removeAt
  rw [markerPath_eq r name hv]
  simp only
  have hrem : removeFile (run (run fs s) (removeTree order (run fs s) (dirOf r name v))) (markerOf r name v) =
      .ok [.remove (markerOf r name v)] := by
    unfold removeFile
    have hb : blocked (run (run fs s) (removeTree order (run fs s) (dirOf r name v))) (markerOf r name v).dropLast = false := by
      rw [marker_dropLast]
      refine not_blocked (p := r.location ++ [name]) ?_ List.prefix_rfl
      intro q hq
      rw [removeTree_get ho, if_neg fun h => dir_not_family r name v (h.trans hq), h2, if_neg]
      · exact hd q (hq.trans (family_prefix r name v))
      · rintro rfl
        exact marker_not_prefix r name v name hq
    rw [hb, removeTree_get ho, if_neg (marker_not_below r name v), h2, if_pos rfl]
    simp only [Bool.false_eq_true, if_false]
    cases he : mget fs (markerOf r name v) with
    | none => rfl
    | some e =>
      obtain ⟨c, rfl⟩ := hm e he
      rfl
  rw [hrem]

theorem remove_get {order : Order} (ho : Lists order) {r : Repo} (hw : r.readOnly = false) {fs : FS} {name v : Str}
    (hn : Component name) (hv : Component v) (hd : Reaches fs (dirOf r name v))
    (hm : ∀ e, mget fs (markerOf r name v) = some e → ∃ c, e = .file c) (q : Path) :
    mget (run fs (remove order r fs name (some v)).1) q =
      if dirOf r name v <+: q ∨ q = markerOf r name v then none else mget fs q := by
  rw [remove_steps ho hw hn hv hd hm]
  simp only
  rw [run_append, run_append]
  have h : ∀ fs' : FS, mget (run fs' [.remove (markerOf r name v)]) q = if q = markerOf r name v then none else mget fs' q := by
    intro fs'
    simp only [run, List.foldl_cons, List.foldl_nil, Step.apply, mget_mdel]
  rw [h]
  by_cases hq : q = markerOf r name v
  · rw [if_pos hq, if_pos (Or.inr hq)]
  · rw [if_neg hq, removeTree_get ho, (ignore_there hw hn hv hd false).2, if_neg hq]
    by_cases hb : dirOf r name v <+: q
    · rw [if_pos hb, if_pos (Or.inl hb)]
    · rw [if_neg hb, if_neg]
      rintro (h | h)
      · exact hb h
      · exact hq h

/-- Wherever a removal is stopped: the payload is whole, or the marker is a file, or the directory is gone. -/
theorem remove_pre {order : Order} (ho : Lists order) {r : Repo} (hw : r.readOnly = false) {fs : FS} {name v : Str}
    (hn : Component name) (hv : Component v) (hd : Reaches fs (dirOf r name v))
    (hm : ∀ e, mget fs (markerOf r name v) = some e → ∃ c, e = .file c) {pre : List Step}
    (hp : pre <+: (remove order r fs name (some v)).1) :
    (Same fs (dirOf r name v) (run fs pre) (dirOf r name v) ∨ Hidden r (run fs pre) name v ∨ Gone (run fs pre) (dirOf r name v)) ∧
    (∀ q, ¬ dirOf r name v <+: q → q ≠ markerOf r name v → mget (run fs pre) q = mget fs q) ∧
    (∀ e, mget (run fs pre) (markerOf r name v) = some e → ∃ c, e = .file c) := by
  have hst := remove_steps ho hw hn hv hd hm
  rw [hst] at hp
  simp only at hp
  have hig := (ignore_there hw hn hv hd false).2
  rcases prefix_append_cases hp with hp | ⟨t, rfl, ht⟩
  · rw [ignore_eq hw fs hn hv] at hp
    have hpre := ignoreAt_pre r fs (name := name) hv (dirOf r name v) false hp
    refine ⟨Or.inl ?_, ?_, ?_⟩
    · intro t
      rcases hpre (dirOf r name v ++ t) with h | ⟨_, h, _⟩ | ⟨_, h, _⟩
      · exact h
      · exact absurd ((List.prefix_append _ _).trans h) (dir_not_family r name v)
      · exact absurd (h ▸ List.prefix_append _ _) (marker_not_below r name v)
    · intro q h1 h2
      rcases hpre q with h | ⟨hnone, h, _⟩ | ⟨_, h, _⟩
      · exact h
      · rw [hd q (h.trans (family_prefix r name v))] at hnone
        cases hnone
      · exact absurd h h2
    · intro e he
      rcases hpre (markerOf r name v) with h | ⟨_, h, _⟩ | ⟨_, _, h⟩
      · rw [h] at he; exact hm e he
      · exact absurd h (marker_not_prefix _ _ _ _)
      · rw [h] at he
        exact ⟨[], (Option.some.inj he).symm⟩
  · rw [run_append]
    generalize hfs1 : run fs (ignore r fs name (some v) false).1 = fs1 at *
    have hmark : ∃ c, mget fs1 (markerOf r name v) = some (.file c) := by
      rw [hig, if_pos rfl]
      cases he : mget fs (markerOf r name v) with
      | none => exact ⟨[], rfl⟩
      | some e =>
        obtain ⟨c, rfl⟩ := hm e he
        exact ⟨c, rfl⟩
    rcases prefix_append_cases ht with ht | ⟨u, rfl, hu⟩
    · have hother : ∀ q, ¬ dirOf r name v <+: q → mget (run fs1 t) q = mget fs1 q := by
        intro q hq
        apply run_other
        intro s hs he
        exact hq (he ▸ removeTree_path ho fs1 (dirOf r name v) s (ht.subset hs))
      have hk : Hidden r (run fs1 t) name v := by
        obtain ⟨c, hc⟩ := hmark
        exact ⟨c, by rw [hother _ (marker_not_below r name v)]; exact hc⟩
      refine ⟨Or.inr (Or.inl hk), ?_, ?_⟩
      · intro q h1 h2
        rw [hother q h1, hig, if_neg h2]
      · intro e he
        obtain ⟨c, hc⟩ := hk
        rw [hc] at he
        exact ⟨c, (Option.some.inj he).symm⟩
    · rw [run_append]
      have hu' : u = [] ∨ u = [.remove (markerOf r name v)] := by
        rcases u with _ | ⟨x, u⟩
        · exact Or.inl rfl
        · obtain ⟨rfl, h⟩ := List.cons_prefix_cons.mp hu
          rw [List.prefix_nil.mp h]
          exact Or.inr rfl
      have hget : ∀ q, mget (run (run fs1 (removeTree order fs1 (dirOf r name v))) u) q =
          if u ≠ [] ∧ q = markerOf r name v then none else if dirOf r name v <+: q then none else mget fs1 q := by
        intro q
        rcases hu' with rfl | rfl
        · simp only [run, List.foldl_nil]
          have := removeTree_get ho fs1 (dirOf r name v) q
          unfold run at this
          rw [this]
          simp
        · simp only [run, List.foldl_cons, List.foldl_nil, Step.apply, mget_mdel]
          have := removeTree_get ho fs1 (dirOf r name v) q
          unfold run at this
          rw [this]
          simp
      refine ⟨Or.inr (Or.inr ?_), ?_, ?_⟩
      · intro t
        rw [hget, if_pos (List.prefix_append _ _)]
        split <;> rfl
      · intro q h1 h2
        rw [hget, if_neg (fun h => h2 h.2), if_neg h1, hig, if_neg h2]
      · intro e he
        rw [hget] at he
        split at he
        · cases he
        · rw [if_neg (marker_not_below r name v)] at he
          obtain ⟨c, hc⟩ := hmark
          rw [hc] at he
          exact ⟨c, (Option.some.inj he).symm⟩

end FsRepoLemmas
open FsRepoLemmas

/-- C127: wherever a removal is stopped, the version is either whole or not among the packages, and nothing but its
directory and its marker is changed. -/
theorem C127_crash_partial (order : Order) (ho : Lists order) (r : Repo) (hw : r.readOnly = false) (fs : FS) (hok : Ok fs)
    (hm : MarkersAreFiles r fs) (name v : Str) (hn : Component name) (hv : Component v) (pre : List Step)
    (hp : Stops (remove order r fs name (some v)).1 pre) :
    (Same fs (dirOf r name v) (run fs pre) (dirOf r name v) ∨ ¬ Listed order r (run fs pre) name v) ∧
    (∀ q, ¬ dirOf r name v <+: q → q ≠ markerOf r name v → mget (run fs pre) q = mget fs q) := by
  by_cases hd : mget fs (dirOf r name v) = some .dir
  · obtain ⟨h1, h2, _⟩ := remove_pre ho hw hn hv (reaches_of_ok hok hd) (hm name v) hp
    refine ⟨?_, h2⟩
    rcases h1 with h | h | h
    · exact Or.inl h
    · right
      intro hl
      exact ((listed_iff ho (nodup_run hok.nodup _) r hn (listed_dir hn hl) v).mp hl).2.2 h
    · right
      intro hl
      have := ((listed_iff ho (nodup_run hok.nodup _) r hn (listed_dir hn hl) v).mp hl).1
      rw [← List.append_nil (dirOf r name v), h []] at this
      cases this
  · have : (remove order r fs name (some v)).1 = [] := by
      unfold remove
      rw [target_eq hw hn hv]
      simp only
      have := C126_missing r hw fs name v hn hv hd
      rw [ignore_eq hw fs hn hv] at this
      rw [this]
      rfl
    rw [this] at hp
    rw [List.prefix_nil.mp hp]
    exact ⟨Or.inl fun _ => rfl, fun _ _ _ => rfl⟩

/-- C127: a removal that ends has removed the version and its marker; if there is no such version, it says so. -/
theorem C127_done_partial (order : Order) (ho : Lists order) (r : Repo) (hw : r.readOnly = false) (fs : FS) (hok : Ok fs)
    (hm : MarkersAreFiles r fs) (name v : Str) (hn : Component name) (hv : Component v) :
    (mget fs (dirOf r name v) = some .dir → (remove order r fs name (some v)).2 = .ok true ∧
      Gone (run fs (remove order r fs name (some v)).1) (dirOf r name v) ∧
      mget (run fs (remove order r fs name (some v)).1) (markerOf r name v) = none) ∧
    (mget fs (dirOf r name v) ≠ some .dir → remove order r fs name (some v) = ([], .ok false)) := by
  constructor
  · intro hd
    have hg := remove_get ho hw hn hv (reaches_of_ok hok hd) (hm name v)
    refine ⟨?_, ?_, ?_⟩
    · rw [remove_steps ho hw hn hv (reaches_of_ok hok hd) (hm name v)]
    · intro t
      rw [hg, if_pos (Or.inl (List.prefix_append _ _))]
    · rw [hg, if_pos (Or.inr rfl)]
  · intro hd
    unfold remove
    rw [target_eq hw hn hv]
    simp only
    have := C126_missing r hw fs name v hn hv hd
    rw [ignore_eq hw fs hn hv] at this
    rw [this]
    rfl

/-- C127: a removal that was stopped while the directory was still there can be repeated. -/
theorem C127_again_partial (order : Order) (ho : Lists order) (r : Repo) (hw : r.readOnly = false) (fs : FS) (hok : Ok fs)
    (hm : MarkersAreFiles r fs) (name v : Str) (hn : Component name) (hv : Component v) (hd : mget fs (dirOf r name v) = some .dir)
    (pre : List Step) (hp : Stops (remove order r fs name (some v)).1 pre)
    (hstill : mget (run fs pre) (dirOf r name v) = some .dir) :
    (remove order r (run fs pre) name (some v)).2 = .ok true ∧
    Gone (run (run fs pre) (remove order r (run fs pre) name (some v)).1) (dirOf r name v) ∧
    mget (run (run fs pre) (remove order r (run fs pre) name (some v)).1) (markerOf r name v) = none := by
  obtain ⟨_, h2, h3⟩ := remove_pre ho hw hn hv (reaches_of_ok hok hd) (hm name v) hp
  have hr : Reaches (run fs pre) (dirOf r name v) := by
    intro q hq
    by_cases he : q = dirOf r name v
    · rw [he]; exact hstill
    · have hq' : q <+: r.location ++ [name] := by
        unfold dirOf at hq he
        rw [show r.location ++ [name, v] = (r.location ++ [name]) ++ [v] by simp] at hq he
        rcases prefix_append_cases hq with h | ⟨t, rfl, ht⟩
        · exact h
        · rcases t with _ | ⟨x, t⟩
          · simp
          · obtain ⟨rfl, h⟩ := List.cons_prefix_cons.mp ht
            rw [List.prefix_nil.mp h] at he
            exact absurd rfl he
      rw [h2 q (fun h => dir_not_family r name v (h.trans hq')) (fun h => marker_not_prefix r name v name (h ▸ hq'))]
      exact reaches_of_ok hok hd q hq
  have hg := remove_get ho hw hn hv hr h3
  refine ⟨?_, ?_, ?_⟩
  · rw [remove_steps ho hw hn hv hr h3]
  · intro t
    rw [hg, if_pos (Or.inl (List.prefix_append _ _))]
  · rw [hg, if_pos (Or.inr rfl)]

/-- C127 is false when a removal is stopped just before its last step: repeating it does nothing, the marker stays, and the
version is not among the packages when it is installed again. -/
theorem C127_stale_false :
    ∃ (pre : List Step) (fs' : FS), Stops (remove id depotRepo depot c!"maya" (some c!"1.0")).1 pre ∧ run depot pre = fs' ∧
      remove id depotRepo fs' c!"maya" (some c!"1.0") = ([], .ok false) ∧
      mget (run fs' [.mkdir [c!"repo", c!"maya", c!"1.0"]]) [c!"repo", c!"maya", c!"1.0"] = some .dir ∧
      ¬ Listed id depotRepo (run fs' [.mkdir [c!"repo", c!"maya", c!"1.0"]]) c!"maya" c!"1.0" := by
  refine ⟨(remove id depotRepo depot c!"maya" (some c!"1.0")).1.dropLast, _, List.dropLast_prefix _, rfl, by decide, by decide, ?_⟩
  rintro ⟨w, hw⟩
  have : ∀ x ∈ packages id depotRepo (run (run depot (remove id depotRepo depot c!"maya" (some c!"1.0")).1.dropLast)
    [.mkdir [c!"repo", c!"maya", c!"1.0"]]) c!"maya", x.1 ≠ c!"1.0" := by decide
  exact this _ hw rfl

/-- C127 is false when a directory has the name of the marker: a removal that is stopped leaves half a version among the
packages. -/
theorem C127_directory_false :
    ∃ (fs : FS) (pre : List Step), Ok fs ∧ Stops (remove id depotRepo fs c!"maya" (some c!"1.0")).1 pre ∧
      Listed id depotRepo (run fs pre) c!"maya" c!"1.0" ∧
      ¬ Same fs (dirOf depotRepo c!"maya" c!"1.0") (run fs pre) (dirOf depotRepo c!"maya" c!"1.0") := by
  refine ⟨[([], .dir), ([c!"repo"], .dir), ([c!"repo", c!"maya"], .dir), ([c!"repo", c!"maya", c!".ignore1.0"], .dir),
    ([c!"repo", c!"maya", c!"1.0", c!"package.py"], .file []), ([c!"repo", c!"maya", c!"1.0"], .dir)],
    mkdirAll [c!"repo", c!"maya"] ++ [.remove [c!"repo", c!"maya", c!"1.0", c!"package.py"]], ok_of (by decide) (by decide),
    List.isPrefixOf_iff_prefix.mp (by decide), ⟨Version.parse c!"1.0", by decide⟩, ?_⟩
  intro h
  exact absurd (h [c!"package.py"]) (by decide)

example : (remove id depotRepo depot c!"maya" (some c!"1.0")).2 = .ok true := by decide
example : Stops (remove id depotRepo depot c!"maya" (some c!"1.0")).1 (remove id depotRepo depot c!"maya" (some c!"1.0")).1.dropLast.dropLast ∧
    mget (run depot ((remove id depotRepo depot c!"maya" (some c!"1.0")).1.take 4)) (dirOf depotRepo c!"maya" c!"1.0") = some .dir :=
  ⟨(List.dropLast_prefix _).trans (List.dropLast_prefix _), by decide⟩

/-! ## C128: removing what was ignored long ago -/

namespace FsRepoLemmas

theorem stripPrefix_iff (p s v : Str) : stripPrefix p s = some v ↔ s = p ++ v := by
  unfold stripPrefix
  constructor
  · intro h
    split at h
    · rename_i hp
      obtain ⟨t, rfl⟩ := List.isPrefixOf_iff_prefix.mp hp
      simp only [List.drop_left, Option.some.injEq] at h
      rw [h]
    · cases h
  · rintro rfl
    rw [if_pos (List.isPrefixOf_iff_prefix.mpr (List.prefix_append _ _)), List.drop_left]

theorem candidate_iff (created : Path → Nat) (now th : Nat) (family : Path) (a : Str) (e : Entry) (v : Str) :
    candidate created now th family (a, e) = some v ↔
      a = c!".ignore" ++ v ∧ v ≠ [] ∧ (∃ c, e = .file c) ∧ th ≤ now - created (family ++ [a]) := by
  unfold candidate
  simp only
  cases hs : stripPrefix c!".ignore" a with
  | none =>
    simp only [reduceCtorEq, false_iff]
    rintro ⟨h, -⟩
    rw [(stripPrefix_iff _ _ _).mpr h] at hs
    cases hs
  | some w =>
    have hw := (stripPrefix_iff _ _ _).mp hs
    simp only
    by_cases hv : w = []
    · rw [if_pos hv]
      simp only [reduceCtorEq, false_iff]
      rintro ⟨h, h2, -⟩
      rw [hw] at h
      exact h2 (List.append_cancel_left h ▸ hv)
    · rw [if_neg hv]
      cases e with
      | file c =>
        simp only
        by_cases ht : th ≤ now - created (family ++ [a])
        · rw [if_pos ht]
          simp only [Option.some.injEq]
          constructor
          · rintro rfl
            exact ⟨hw, hv, ⟨c, rfl⟩, ht⟩
          · rintro ⟨h, -⟩
            rw [hw] at h
            exact List.append_cancel_left h
        · rw [if_neg ht]
          simp only [reduceCtorEq, false_iff]
          exact fun h => ht h.2.2.2
      | _ => simp

theorem candidates_mem {order : Order} (ho : Lists order) {fs : FS} (hok : Ok fs) (r : Repo) (created : Path → Nat) (now th : Nat)
    (n v : Str) : (n, v) ∈ FsRepo.candidates order r fs created now th ↔ OldMarker r fs created now th n v := by
  unfold FsRepo.candidates OldMarker
  rw [List.mem_flatMap]
  have hp : ∀ m a : Str, r.location ++ [m] ++ [a] = r.location ++ [m, a] := fun m a => by simp
  constructor
  · rintro ⟨⟨m, e⟩, hf, hx⟩
    simp only at hx
    split at hx
    · rename_i hd
      obtain ⟨w, hw, hwe⟩ := List.mem_map.mp hx
      simp only [Prod.mk.injEq] at hwe
      obtain ⟨rfl, rfl⟩ := hwe
      obtain ⟨⟨a, e'⟩, ha, hc⟩ := List.mem_filterMap.mp hw
      obtain ⟨rfl, hv, ⟨c, rfl⟩, ht⟩ := (candidate_iff _ _ _ _ _ _ _).mp hc
      rw [hp] at ht
      refine ⟨hv, ⟨c, ?_⟩, ht⟩
      have := (children_mem ho hok.nodup _ _ _).mp ha
      rw [hp] at this
      exact this
    · cases hx
  · rintro ⟨hv, ⟨c, hc⟩, ht⟩
    have hd : mget fs (r.location ++ [n]) = some .dir := by
      refine hok.parents (markerOf r n v) _ ?_ ?_ (by rw [hc]; rfl)
      · unfold markerOf
        rw [← hp]
        exact List.prefix_append _ _
      · intro h
        exact marker_not_prefix r n v n (h ▸ List.prefix_rfl)
    refine ⟨(n, .dir), (children_mem ho hok.nodup _ _ _).mpr hd, ?_⟩
    simp only [if_true]
    refine List.mem_map.mpr ⟨v, List.mem_filterMap.mpr ⟨(c!".ignore" ++ v, .file c), (children_mem ho hok.nodup _ _ _).mpr ?_, ?_⟩, rfl⟩
    · rw [hp]; exact hc
    · refine (candidate_iff _ _ _ _ _ _ _).mpr ⟨rfl, hv, ⟨c, rfl⟩, ?_⟩
      rw [hp]; exact ht

theorem candidates_nodup {order : Order} (ho : Lists order) {fs : FS} (hok : Ok fs) (r : Repo) (created : Path → Nat) (now th : Nat) :
    (FsRepo.candidates order r fs created now th).Nodup := by
  unfold FsRepo.candidates
  rw [List.nodup_flatMap]
  constructor
  · rintro ⟨m, e⟩ _
    simp only
    split
    · refine List.Nodup.map (fun a b h => (Prod.mk.inj h).2) ?_
      have h := children_nodup ho hok.nodup (r.location ++ [m])
      unfold List.Nodup at h ⊢
      rw [List.pairwise_map] at h
      refine List.Pairwise.filterMap _ ?_ h
      rintro ⟨a, e1⟩ ⟨b, e2⟩ hne v hv w hw rfl
      exact hne (((candidate_iff _ _ _ _ _ _ _).mp hv).1.trans ((candidate_iff _ _ _ _ _ _ _).mp hw).1.symm)
    · exact List.nodup_nil
  · have h := children_nodup ho hok.nodup r.location
    unfold List.Nodup at h
    rw [List.pairwise_map] at h
    refine h.imp ?_
    rintro ⟨a, e1⟩ ⟨b, e2⟩ hne ⟨x, y⟩ h1 h2
    simp only at h1 h2
    split at h1
    · split at h2
      · obtain ⟨_, _, he1⟩ := List.mem_map.mp h1
        obtain ⟨_, _, he2⟩ := List.mem_map.mp h2
        exact hne ((Prod.mk.inj he1).1.trans (Prod.mk.inj he2).1.symm)
      · cases h2
    · cases h1

/-- What belongs to a version: what is in its directory, and its marker. -/
def Covers (r : Repo) (x : Str × Str) (q : Path) : Prop := dirOf r x.1 x.2 <+: q ∨ q = markerOf r x.1 x.2

theorem dir_inj {r : Repo} {n v n' v' : Str} (h : dirOf r n v <+: dirOf r n' v') : n = n' ∧ v = v' := by
  obtain ⟨t, ht⟩ := h
  unfold dirOf at ht
  rw [List.append_assoc] at ht
  have := List.append_cancel_left ht
  simp only [List.cons_append, List.nil_append, List.cons.injEq] at this
  exact ⟨this.1, this.2.1⟩

theorem remove_ok {order : Order} (ho : Lists order) {r : Repo} (hw : r.readOnly = false) {fs : FS} (hok : Ok fs) {name v : Str}
    (hn : Component name) (hv : Component v) (hd : mget fs (dirOf r name v) = some .dir)
    (hm : ∀ e, mget fs (markerOf r name v) = some e → ∃ c, e = .file c) : Ok (run fs (remove order r fs name (some v)).1) := by
  have hg := remove_get ho hw hn hv (reaches_of_ok hok hd) hm
  refine ⟨nodup_run hok.nodup _, ?_⟩
  intro p q hqp hne hp
  rw [hg] at hp
  rw [hg]
  split at hp
  · cases hp
  · rename_i hnc
    have hq := hok.parents p q hqp hne hp
    rw [if_neg]
    · exact hq
    · rintro (h | rfl)
      · exact hnc (Or.inl (h.trans hqp))
      · obtain ⟨c, hc⟩ := hm _ hq
        cases hc

theorem remove_missing {order : Order} {r : Repo} (hw : r.readOnly = false) {fs : FS} {name v : Str} (hn : Component name)
    (hv : Component v) (hd : mget fs (dirOf r name v) ≠ some .dir) : remove order r fs name (some v) = ([], .ok false) := by
  unfold remove
  rw [target_eq hw hn hv]
  simp only
  have := C126_missing r hw fs name v hn hv hd
  rw [ignore_eq hw fs hn hv] at this
  rw [this]
  rfl

theorem remove_dots {order : Order} {r : Repo} (hw : r.readOnly = false) {fs : FS} {name v : Str}
    (hv : v = c!"." ∨ v = c!"..") : remove order r fs name (some v) = ([], .error .invalid) := by
  unfold remove target
  rw [hw]
  rcases hv with rfl | rfl <;> rfl

theorem removeAll_pre {order : Order} (ho : Lists order) {r : Repo} (hw : r.readOnly = false) (L : List (Str × Str)) {fs : FS}
    (hok : Ok fs) (hL : ∀ x ∈ L, Component x.1 ∧ '/' ∉ x.2 ∧ x.2 ≠ [] ∧
      ∀ e, mget fs (markerOf r x.1 x.2) = some e → ∃ c, e = .file c) {pre : List Step} (hp : pre <+: (removeAll order r fs L).1)
    (q : Path) : mget (run fs pre) q = mget fs q ∨ ∃ x ∈ L, Covers r x q := by
  induction L generalizing fs pre with
  | nil =>
    rw [removeAll] at hp
    rw [List.prefix_nil.mp hp]
    exact Or.inl rfl
  | cons x L ih =>
    obtain ⟨n, v⟩ := x
    obtain ⟨hn, hs, he, hm⟩ := hL (n, v) List.mem_cons_self
    simp only at hn hs he hm
    rw [removeAll] at hp
    by_cases hv : Component v
    · by_cases hd : mget fs (dirOf r n v) = some .dir
      · have hg := remove_get ho hw hn hv (reaches_of_ok hok hd) hm
        have hok' := remove_ok ho hw hok hn hv hd hm
        have hpr := fun {pre} hp => remove_pre ho hw hn hv (reaches_of_ok hok hd) hm (pre := pre) hp
        have hres : (remove order r fs n (some v)).2 = .ok true := by rw [remove_steps ho hw hn hv (reaches_of_ok hok hd) hm]
        generalize remove order r fs n (some v) = re at *
        obtain ⟨s, res⟩ := re
        simp only at hres hg hok' hp hpr
        subst hres
        simp only at hp
        by_cases hcov : Covers r (n, v) q
        · exact Or.inr ⟨_, List.mem_cons_self, hcov⟩
        · have hc1 : ¬ dirOf r n v <+: q := fun h => hcov (Or.inl h)
          have hc2 : q ≠ markerOf r n v := fun h => hcov (Or.inr h)
          rcases prefix_append_cases hp with hp | ⟨t, rfl, ht⟩
          · exact Or.inl ((hpr hp).2.1 q hc1 hc2)
          · rw [run_append]
            have := ih hok' (fun y hy => by
              obtain ⟨h1, h2, h3, h4⟩ := hL y (List.mem_cons_of_mem _ hy)
              refine ⟨h1, h2, h3, fun e he => ?_⟩
              rw [hg] at he
              split at he
              · cases he
              · exact h4 e he) ht
            rw [hg, if_neg (show ¬ (dirOf r n v <+: q ∨ q = markerOf r n v) from hcov)] at this
            rcases this with h | ⟨y, hy, h⟩
            · exact Or.inl h
            · exact Or.inr ⟨y, List.mem_cons_of_mem _ hy, h⟩
      · rw [remove_missing hw hn hv hd] at hp
        simp only [List.nil_append] at hp
        rcases ih hok (fun y hy => hL y (List.mem_cons_of_mem _ hy)) hp with h | ⟨y, hy, h⟩
        · exact Or.inl h
        · exact Or.inr ⟨y, List.mem_cons_of_mem _ hy, h⟩
    · rw [remove_dots hw (by
        by_contra hne
        rw [not_or] at hne
        exact hv ⟨he, hs, hne⟩)] at hp
      rw [List.prefix_nil.mp hp]
      exact Or.inl rfl

theorem removeAll_done {order : Order} (ho : Lists order) {r : Repo} (hw : r.readOnly = false) (L : List (Str × Str)) {fs : FS}
    (hok : Ok fs) (hnd : L.Nodup) (hL : ∀ x ∈ L, Component x.1 ∧ Component x.2 ∧
      ∀ e, mget fs (markerOf r x.1 x.2) = some e → ∃ c, e = .file c) :
    (removeAll order r fs L).2 = .ok (L.filter fun x => mget fs (dirOf r x.1 x.2) = some .dir).length ∧
    (∀ q, (∃ x ∈ L, mget fs (dirOf r x.1 x.2) = some .dir ∧ Covers r x q) → mget (run fs (removeAll order r fs L).1) q = none) ∧
    (∀ q, ¬ (∃ x ∈ L, mget fs (dirOf r x.1 x.2) = some .dir ∧ Covers r x q) →
      mget (run fs (removeAll order r fs L).1) q = mget fs q) := by
  induction L generalizing fs with
  | nil =>
    refine ⟨rfl, ?_, fun _ _ => rfl⟩
    rintro q ⟨x, hx, -⟩
    cases hx
  | cons x L ih =>
    obtain ⟨n, v⟩ := x
    obtain ⟨hn, hv, hm⟩ := hL (n, v) List.mem_cons_self
    simp only at hn hv hm
    have hnd' := List.nodup_cons.mp hnd
    rw [removeAll]
    by_cases hd : mget fs (dirOf r n v) = some .dir
    · have hg := remove_get ho hw hn hv (reaches_of_ok hok hd) hm
      have hok' := remove_ok ho hw hok hn hv hd hm
      have hres : (remove order r fs n (some v)).2 = .ok true := by rw [remove_steps ho hw hn hv (reaches_of_ok hok hd) hm]
      generalize remove order r fs n (some v) = re at *
      obtain ⟨s, res⟩ := re
      simp only at hres hg hok'
      subst hres
      simp only
      have hsame : ∀ y ∈ L, (mget (run fs s) (dirOf r y.1 y.2) = some .dir ↔ mget fs (dirOf r y.1 y.2) = some .dir) := by
        intro y hy
        rw [hg]
        split
        · rename_i h
          simp only [reduceCtorEq, false_iff]
          rcases h with h | h
          · obtain ⟨rfl, rfl⟩ := dir_inj h
            exact absurd hy hnd'.1
          · rw [h]
            intro hh
            obtain ⟨c, hc⟩ := hm _ hh
            cases hc
        · exact Iff.rfl
      obtain ⟨h1, h2, h3⟩ := ih hok' hnd'.2 (fun y hy => by
        obtain ⟨h1, h2, h4⟩ := hL y (List.mem_cons_of_mem _ hy)
        refine ⟨h1, h2, fun e he => ?_⟩
        rw [hg] at he
        split at he
        · cases he
        · exact h4 e he)
      refine ⟨?_, ?_, ?_⟩
      · rw [h1, List.filter_cons_of_pos (by simpa using hd)]
        have : L.filter (fun x => decide (mget (run fs s) (dirOf r x.1 x.2) = some .dir)) =
            L.filter (fun x => decide (mget fs (dirOf r x.1 x.2) = some .dir)) :=
          List.filter_congr fun y hy => by rw [decide_eq_decide]; exact hsame y hy
        rw [this]
        rfl
      · rintro q ⟨y, hy, hyd, hyc⟩
        rw [run_append]
        rcases List.mem_cons.mp hy with rfl | hy
        · by_cases hc : ∃ x ∈ L, mget (run fs s) (dirOf r x.1 x.2) = some .dir ∧ Covers r x q
          · exact h2 q hc
          · rw [h3 q hc, hg, if_pos (show dirOf r n v <+: q ∨ q = markerOf r n v from hyc)]
        · exact h2 q ⟨y, hy, (hsame y hy).mpr hyd, hyc⟩
      · intro q hq
        rw [run_append, h3 q, hg, if_neg]
        · exact fun hc => hq ⟨(n, v), List.mem_cons_self, hd, hc⟩
        · rintro ⟨y, hy, hyd, hyc⟩
          exact hq ⟨y, List.mem_cons_of_mem _ hy, (hsame y hy).mp hyd, hyc⟩
    · rw [remove_missing hw hn hv hd]
      simp only [List.nil_append]
      obtain ⟨h1, h2, h3⟩ := ih hok hnd'.2 fun y hy => hL y (List.mem_cons_of_mem _ hy)
      refine ⟨?_, ?_, ?_⟩
      · have : run fs [] = fs := rfl
        rw [this, h1, List.filter_cons_of_neg (by simpa using hd)]
        rfl
      · rintro q ⟨y, hy, hyd, hyc⟩
        rcases List.mem_cons.mp hy with rfl | hy
        · exact absurd hyd hd
        · exact h2 q ⟨y, hy, hyd, hyc⟩
      · intro q hq
        exact h3 q fun ⟨y, hy, h⟩ => hq ⟨y, List.mem_cons_of_mem _ hy, h⟩

theorem old_names {r : Repo} {fs : FS} (hnames : Names fs) {created : Path → Nat} {now age : Nat} {n v : Str}
    (h : OldMarker r fs created now age n v) : Component n ∧ '/' ∉ v ∧ v ≠ [] := by
  obtain ⟨h1, ⟨c, hc⟩, _⟩ := h
  have := hnames (markerOf r n v) ((mget_isSome_iff fs _).mp ⟨_, hc⟩)
  refine ⟨this n (by simp [markerOf]), ?_, h1⟩
  intro hs
  exact (this (c!".ignore" ++ v) (by simp [markerOf])).slash (List.mem_append_right _ hs)

/-- So many days in nanoseconds. -/
def nanos (days : Nat) : Nat := days * 24 * 60 * 60 * 1000000000

end FsRepoLemmas
open FsRepoLemmas (nanos)

/-- C128: wherever the removal of what was ignored long ago is stopped, and whether or not it fails, only versions whose
marker is that old are touched. -/
theorem C128_only (order : Order) (ho : Lists order) (r : Repo) (fs : FS) (hok : Ok fs) (hnames : Names fs)
    (created : Path → Nat) (now : Nat) (days : Int) (dry : Bool) (pre : List Step)
    (hp : Stops (removeIgnoredSince order r fs created now days dry).1 pre) (q : Path)
    (hq : mget (run fs pre) q ≠ mget fs q) :
    dry = false ∧ r.readOnly = false ∧ 0 ≤ days ∧
    ∃ name v, OldMarker r fs created now (days.toNat * 24 * 60 * 60 * 1000000000) name v ∧
      (dirOf r name v <+: q ∨ q = markerOf r name v) := by
  have hnil : pre = [] → False := fun h => hq (by rw [h]; rfl)
  unfold removeIgnoredSince at hp
  split at hp
  · exact (hnil (List.prefix_nil.mp hp)).elim
  · rename_i hr
    split at hp
    · exact (hnil (List.prefix_nil.mp hp)).elim
    · rename_i hday
      split at hp
      · exact (hnil (List.prefix_nil.mp hp)).elim
      · cases dry with
        | true => exact (hnil (List.prefix_nil.mp hp)).elim
        | false =>
          simp only [Bool.false_eq_true, if_false] at hp
          refine ⟨rfl, by simpa using hr, by omega, ?_⟩
          rcases removeAll_pre ho (by simpa using hr) _ hok (fun x hx => by
            have hx := (candidates_mem ho hok r created now _ x.1 x.2).mp hx
            obtain ⟨h1, h2, h3⟩ := old_names hnames hx
            refine ⟨h1, h2, h3, fun e he => ?_⟩
            obtain ⟨_, ⟨c, hc⟩, _⟩ := hx
            exact ⟨c, by rw [hc] at he; exact (Option.some.inj he).symm⟩) hp q with h | ⟨x, hx, h⟩
          · exact absurd h hq
          · exact ⟨x.1, x.2, (candidates_mem ho hok r created now _ x.1 x.2).mp hx, h⟩

/-- C128: when it ends, every version whose marker is that old is gone with its marker, nothing else is changed, and the
result is the number of these versions.  `all` is any list of them. -/
theorem C128_done_partial (order : Order) (ho : Lists order) (r : Repo) (hw : r.readOnly = false) (fs : FS) (hok : Ok fs)
    (hnames : Names fs) (hloc : mget fs r.location = some .dir) (created : Path → Nat) (now days : Nat)
    (hdots : ∀ name v, OldMarker r fs created now (days * 24 * 60 * 60 * 1000000000) name v → v ≠ c!"." ∧ v ≠ c!"..")
    (all : List (Str × Str)) (hnd : all.Nodup)
    (hall : ∀ name v, (name, v) ∈ all ↔
      OldMarker r fs created now (days * 24 * 60 * 60 * 1000000000) name v ∧ mget fs (dirOf r name v) = some .dir) :
    (removeIgnoredSince order r fs created now days false).2 = .ok all.length ∧
    (∀ name v, (name, v) ∈ all →
      Gone (run fs (removeIgnoredSince order r fs created now days false).1) (dirOf r name v) ∧
      mget (run fs (removeIgnoredSince order r fs created now days false).1) (markerOf r name v) = none) ∧
    (∀ q, (∀ name v, (name, v) ∈ all → ¬ dirOf r name v <+: q ∧ q ≠ markerOf r name v) →
      mget (run fs (removeIgnoredSince order r fs created now days false).1) q = mget fs q) := by
  have heq : removeIgnoredSince order r fs created now days false =
      removeAll order r fs (FsRepo.candidates order r fs created now (days * 24 * 60 * 60 * 1000000000)) := by
    unfold removeIgnoredSince
    rw [hw, if_neg (by simp), if_neg (by omega), if_neg (by rw [hloc]; simp)]
    simp
  have hmem := candidates_mem ho hok r created now (days * 24 * 60 * 60 * 1000000000)
  obtain ⟨h1, h2, h3⟩ := removeAll_done ho hw _ hok (candidates_nodup ho hok r created now (days * 24 * 60 * 60 * 1000000000))
    (fun x hx => by
      have hx := (hmem x.1 x.2).mp hx
      obtain ⟨h1, h2, h3⟩ := old_names hnames hx
      refine ⟨h1, ⟨h3, h2, hdots x.1 x.2 hx⟩, fun e he => ?_⟩
      obtain ⟨_, ⟨c, hc⟩, _⟩ := hx
      exact ⟨c, by rw [hc] at he; exact (Option.some.inj he).symm⟩)
  rw [heq]
  have hin : ∀ n v, (n, v) ∈ all → (n, v) ∈ FsRepo.candidates order r fs created now (days * 24 * 60 * 60 * 1000000000) ∧
      mget fs (dirOf r n v) = some .dir := fun n v h => ⟨(hmem n v).mpr ((hall n v).mp h).1, ((hall n v).mp h).2⟩
  refine ⟨?_, ?_, ?_⟩
  · rw [h1]
    congr 1
    refine List.Perm.length_eq ((List.perm_ext_iff_of_nodup
      ((candidates_nodup ho hok r created now (days * 24 * 60 * 60 * 1000000000)).filter _) hnd).mpr ?_)
    rintro ⟨n, v⟩
    rw [List.mem_filter, hmem, hall]
    simp
  · intro n v h
    refine ⟨fun t => h2 _ ⟨(n, v), (hin n v h).1, (hin n v h).2, Or.inl (List.prefix_append _ _)⟩,
      h2 _ ⟨(n, v), (hin n v h).1, (hin n v h).2, Or.inr rfl⟩⟩
  · intro q hq
    refine h3 q ?_
    rintro ⟨x, hx, hd, hc⟩
    have := hq x.1 x.2 ((hall x.1 x.2).mpr ⟨(hmem x.1 x.2).mp hx, hd⟩)
    rcases hc with hc | hc
    · exact this.1 hc
    · exact this.2 hc

/-- C128: a dry run changes nothing, and gives the number of markers that are that old. -/
theorem C128_dry (order : Order) (ho : Lists order) (r : Repo) (hw : r.readOnly = false) (fs : FS) (hok : Ok fs)
    (hloc : mget fs r.location = some .dir) (created : Path → Nat) (now days : Nat) (all : List (Str × Str)) (hnd : all.Nodup)
    (hall : ∀ name v, (name, v) ∈ all ↔ OldMarker r fs created now (days * 24 * 60 * 60 * 1000000000) name v) :
    removeIgnoredSince order r fs created now days true = ([], .ok all.length) := by
  unfold removeIgnoredSince
  rw [hw, if_neg (by simp), if_neg (by omega), if_neg (by rw [hloc]; simp)]
  simp only [if_true, Int.toNat_natCast]
  congr 2
  refine List.Perm.length_eq ((List.perm_ext_iff_of_nodup (candidates_nodup ho hok r created now _) hnd).mpr ?_)
  rintro ⟨n, v⟩
  rw [candidates_mem ho hok, hall]

/-- C128 is false for dry runs in that they announce more removals than there are: a marker without a version counts. -/
theorem C128_dry_false :
    ∃ (fs : FS) (created : Path → Nat), Ok fs ∧ (removeIgnoredSince id depotRepo fs created 0 0 true).2 = .ok 1 ∧
      removeIgnoredSince id depotRepo fs created 0 0 false = ([], .ok 0) := by
  refine ⟨[([], .dir), ([c!"repo"], .dir), ([c!"repo", c!"maya"], .dir), ([c!"repo", c!"maya", c!".ignore1.0"], .file [])],
    fun _ => 0, ok_of (by decide) (by decide), by decide, by decide⟩

/-- C128 is false when there is a file `.ignore..`: the operation fails, and versions listed after it are not removed. -/
theorem C128_dots_false :
    ∃ (fs : FS) (created : Path → Nat), Ok fs ∧ OldMarker depotRepo fs created 0 0 c!"maya" c!"2.0" ∧
      mget fs (dirOf depotRepo c!"maya" c!"2.0") = some .dir ∧
      removeIgnoredSince id depotRepo fs created 0 0 false = ([], .error .invalid) := by
  refine ⟨([c!"repo", c!"maya", c!".ignore.."], .file []) :: depot, fun _ => 0, ok_of (by decide) (by decide),
    ⟨by decide, ⟨[], by decide⟩, by decide⟩, by decide, by decide⟩

example : Names depot := by
  intro p hp s hs
  have : ∀ p ∈ mkeys depot, ∀ s ∈ p, s ≠ [] ∧ '/' ∉ s ∧ s ≠ c!"." ∧ s ≠ c!".." := by decide
  obtain ⟨h1, h2, h3⟩ := this p hp s hs
  exact ⟨h1, h2, h3⟩

example : (removeIgnoredSince id depotRepo depot (fun _ => 0) (nanos 3) 2 false).2 = .ok 1 := by decide
example : removeIgnoredSince id depotRepo depot (fun _ => 0) (nanos 3) 4 false = ([], .ok 0) := by decide
example : OldMarker depotRepo depot (fun _ => 0) (nanos 3) (nanos 2) c!"maya" c!"2.0" := ⟨by decide, ⟨[], by decide⟩, by decide⟩

/-! ## C129: read-only repositories, families, and what can be touched -/

/-- C129: an operation on a read-only repository does nothing and fails. -/
theorem C129_readonly (order : Order) (r : Repo) (hr : r.readOnly = true) (fs : FS) (name : Str) (version : Option Str) :
    (∀ a, ignore r fs name version a = ([], .error .readOnly)) ∧
    unignore r fs name version = ([], .error .readOnly) ∧
    remove order r fs name version = ([], .error .readOnly) ∧
    (∀ force, removeFamily order r fs name force = ([], .error .readOnly)) ∧
    (∀ created now days dry, removeIgnoredSince order r fs created now days dry = ([], .error .readOnly)) := by
  have ht : target r name version = .error .readOnly := by unfold target; rw [hr]; rfl
  refine ⟨fun a => ?_, ?_, ?_, fun force => ?_, fun created now days dry => ?_⟩
  · unfold ignore; rw [ht]
  · unfold unignore; rw [ht]
  · unfold remove; rw [ht]
  · unfold FsRepo.removeFamily; rw [hr]; rfl
  · unfold removeIgnoredSince; rw [hr]; rfl

namespace FsRepoLemmas

/-- A step inside a directory, or one that makes a directory on the way to it. -/
def Inside (root : Path) (s : Step) : Prop := (root <+: path s ∧ path s ≠ root) ∨ ∃ p, s = .mkdir p ∧ p <+: root

theorem inside_mkdirAll (root : Path) (c : Str) : ∀ s ∈ mkdirAll (root ++ [c]), Inside root s := by
  intro s hs
  obtain ⟨q, hq, rfl⟩ := List.mem_map.mp hs
  rcases prefix_append_cases ((List.mem_inits q _).mp hq) with h | ⟨t, rfl, _⟩
  · exact Or.inr ⟨q, rfl, h⟩
  · by_cases ht : t = []
    · subst ht
      exact Or.inr ⟨_, rfl, by simp⟩
    · refine Or.inl ⟨List.prefix_append _ _, ?_⟩
      show root ++ t ≠ root
      simpa using ht

theorem inside_of_prefix {root : Path} {t : Path} (ht : t ≠ []) {s : Step} (h : root ++ t <+: path s) : Inside root s := by
  refine Or.inl ⟨(List.prefix_append _ _).trans h, ?_⟩
  intro he
  have := h.length_le
  rw [he] at this
  cases t with
  | nil => exact ht rfl
  | cons x t => simp at this; omega

theorem target_inside {r : Repo} {name : Str} {version : Option Str} {family dir : Path} {v : Str}
    (h : target r name version = .ok (family, dir, v)) :
    ∃ c d, family = r.location ++ [c] ∧ dir = r.location ++ [c, d] := by
  unfold target at h
  split at h
  · cases h
  · split at h
    · cases h
    · split at h
      · cases h
      · split at h
        · cases h
        · rename_i w h1 h2
          simp only [Except.ok.injEq, Prod.mk.injEq] at h
          obtain ⟨rfl, rfl, _⟩ := h
          obtain ⟨c, _, hc⟩ := valid_join (by simpa using h2)
          obtain ⟨d, _, hd⟩ := valid_join (by simpa using h1)
          exact ⟨c, d, hc _, by rw [hd, hc]; simp⟩

theorem markerPath_inside {family m : Path} {v : Str} (h : markerPath family v = some m) : m = family ++ [c!".ignore" ++ v] := by
  unfold markerPath at h
  split at h
  · cases h
  · exact (Option.some.inj h).symm

theorem ignoreAt_inside (root : Path) (c : Str) (fs : FS) (dir : Path) (v : Str) (a : Bool) :
    ∀ s ∈ (ignoreAt fs (root ++ [c]) dir v a).1, Inside root s := by
  intro s hs
  unfold ignoreAt at hs
  split at hs
  · cases hs
  · split at hs
    · cases hs
    · split at hs
      · exact inside_mkdirAll root c s hs
      · rename_i m hm
        have := markerPath_inside hm
        split at hs
        · exact inside_mkdirAll root c s hs
        · rcases List.mem_append.mp hs with h | h
          · exact inside_mkdirAll root c s h
          · rw [List.mem_singleton.mp h]
            refine inside_of_prefix (t := [c, c!".ignore" ++ v]) (by simp) ?_
            show _ <+: m
            rw [this]
            simp

theorem removeFile_inside {root : Path} {c : Str} {fs : FS} {v : Str} {m : Path} (hm : markerPath (root ++ [c]) v = some m)
    {steps : List Step} (h : removeFile fs m = .ok steps) : ∀ s ∈ steps, Inside root s := by
  intro s hs
  unfold removeFile at h
  split at h
  · cases h
  · split at h
    · simp only [Except.ok.injEq] at h; subst h; cases hs
    · cases h
    · simp only [Except.ok.injEq] at h
      subst h
      rw [List.mem_singleton.mp hs]
      refine inside_of_prefix (t := [c, c!".ignore" ++ v]) (by simp) ?_
      show _ <+: m
      rw [markerPath_inside hm]
      simp

theorem remove_inside {order : Order} (ho : Lists order) (r : Repo) (fs : FS) (name : Str) (version : Option Str) :
    ∀ s ∈ (remove order r fs name version).1, Inside r.location s := by
  intro s hs
  unfold remove at hs
  split at hs
  · cases hs
  · rename_i family dir v ht
    obtain ⟨c, d, rfl, rfl⟩ := target_inside ht
    have hig := ignoreAt_inside r.location c fs (r.location ++ [c, d]) v false
    generalize ignoreAt fs (r.location ++ [c]) (r.location ++ [c, d]) v false = ig at *
    obtain ⟨s1, res⟩ := ig
    cases res with
    | error e => exact hig s hs
    | ok n =>
      simp only at hs
      split at hs
      · exact hig s hs
      · rcases List.mem_append.mp hs with h | h
        · exact hig s h
        · unfold removeAt at h
          have ht : ∀ x ∈ removeTree order (run fs s1) (r.location ++ [c, d]), Inside r.location x :=
            fun x hx => inside_of_prefix (t := [c, d]) (by simp) (removeTree_path ho _ _ x hx)
          simp only at h
          split at h
          · exact ht s h
          · rename_i m hm
            split at h
            · exact ht s h
            · rename_i t hrf
              rcases List.mem_append.mp h with h | h
              · exact ht s h
              · exact removeFile_inside hm hrf s h

end FsRepoLemmas
open FsRepoLemmas (Inside)

/-- C129: whatever the name and the version are, `..` or an absolute path say, no operation changes anything outside the
repository, or the repository's own directory, except that it makes the directories on the way to the repository. -/
theorem C129_inside (order : Order) (ho : Lists order) (r : Repo) (fs : FS) (name : Str) (version : Option Str) (s : Step)
    (hs : (∃ a, s ∈ (ignore r fs name version a).1) ∨ s ∈ (unignore r fs name version).1 ∨ s ∈ (remove order r fs name version).1 ∨
      (∃ force, s ∈ (removeFamily order r fs name force).1) ∨
      ∃ created now days dry, s ∈ (removeIgnoredSince order r fs created now days dry).1) :
    (r.location <+: path s ∧ path s ≠ r.location) ∨ ∃ p, s = .mkdir p ∧ p <+: r.location := by
  rcases hs with ⟨a, hs⟩ | hs | hs | ⟨force, hs⟩ | ⟨created, now, days, dry, hs⟩
  · unfold ignore at hs
    split at hs
    · cases hs
    · rename_i family dir v ht
      obtain ⟨c, d, rfl, rfl⟩ := target_inside ht
      exact ignoreAt_inside _ _ _ _ _ _ s hs
  · unfold unignore at hs
    split at hs
    · cases hs
    · rename_i family dir v ht
      obtain ⟨c, d, rfl, rfl⟩ := target_inside ht
      split at hs
      · cases hs
      · rename_i m hm
        split at hs
        · cases hs
        · rename_i steps hrf
          exact removeFile_inside hm hrf s hs
  · exact remove_inside ho r fs name version s hs
  · unfold FsRepo.removeFamily at hs
    split at hs
    · cases hs
    · split at hs
      · cases hs
      · rename_i family hf
        have : ∃ c, family = r.location ++ [c] := by
          unfold familyPath at hf
          split at hf
          · rename_i hv
            obtain ⟨c, _, hc⟩ := valid_join hv
            exact ⟨c, by rw [← Option.some.inj hf, hc]⟩
          · cases hf
        obtain ⟨c, rfl⟩ := this
        split at hs
        · cases hs
        · split at hs
          · cases hs
          · exact inside_of_prefix (t := [c]) (by simp) (removeTree_path ho _ _ s hs)
  · unfold removeIgnoredSince at hs
    split at hs
    · cases hs
    · split at hs
      · cases hs
      · split at hs
        · cases hs
        · cases dry with
          | true => cases hs
          | false =>
            simp only [Bool.false_eq_true, if_false] at hs
            revert hs
            generalize FsRepo.candidates order r fs created now _ = L
            intro hs
            rename_i hr hd hloc
            clear hloc
            induction L generalizing fs with
            | nil => cases hs
            | cons x L ih =>
              obtain ⟨n, v⟩ := x
              rw [removeAll] at hs
              have hin := remove_inside ho r fs n (some v)
              generalize remove order r fs n (some v) = re at *
              obtain ⟨s1, res⟩ := re
              cases res with
              | error e => exact hin s hs
              | ok b =>
                simp only at hs
                rcases List.mem_append.mp hs with h | h
                · exact hin s h
                · exact ih _ h

/-- C129: without force a family is removed only if it has no version, hidden or not; with force it is always removed.
Nothing outside it is changed, and a family that is not there is reported. -/
theorem C129_family_partial (order : Order) (ho : Lists order) (r : Repo) (hw : r.readOnly = false) (fs : FS) (hok : Ok fs)
    (name : Str) (hn : Component name) (force : Bool) :
    (mget fs (r.location ++ [name]) ≠ some .dir → removeFamily order r fs name force = ([], .ok false)) ∧
    (mget fs (r.location ++ [name]) = some .dir →
      ((removeFamily order r fs name force).2 = .ok true ↔
        force = true ∨ ∀ v, mget fs (dirOf r name v) = some .dir → v.head? = some '.') ∧
      ((removeFamily order r fs name force).2 ≠ .ok true → removeFamily order r fs name force = ([], .error .notEmpty)) ∧
      ((removeFamily order r fs name force).2 = .ok true → ∀ q, mget (run fs (removeFamily order r fs name force).1) q =
        if r.location ++ [name] <+: q then none else mget fs q)) := by
  have hf : familyPath r name = some (r.location ++ [name]) := by
    unfold familyPath
    rw [valid_component hn, join_component _ hn]
    rfl
  have hp : ∀ v, r.location ++ [name] ++ [v] = dirOf r name v := fun v => by simp [dirOf]
  constructor
  · intro h
    unfold FsRepo.removeFamily
    rw [hw, hf]
    simp [h]
  · intro h
    have key : removeFamily order r fs name force =
        if !force && (children order fs (r.location ++ [name])).any (fun e => e.2 == .dir && e.1.head? != some '.') then
          ([], .error .notEmpty) else (removeTree order fs (r.location ++ [name]), .ok true) := by
      unfold FsRepo.removeFamily
      rw [hw, hf]
      simp [h]
    have hany : (children order fs (r.location ++ [name])).any (fun e => e.2 == .dir && e.1.head? != some '.') = false ↔
        ∀ v, mget fs (dirOf r name v) = some .dir → v.head? = some '.' := by
      rw [List.any_eq_false]
      constructor
      · intro ha v hv
        have := ha (v, .dir) ((children_mem ho hok.nodup _ _ _).mpr (by rw [hp]; exact hv))
        simpa using this
      · rintro ha ⟨v, e⟩ he
        have he := (children_mem ho hok.nodup _ _ _).mp he
        rw [hp] at he
        simp only [Bool.and_eq_true, not_and]
        intro hd
        have : e = .dir := by simpa using hd
        subst this
        simp [ha v he]
    rw [key]
    split
    · rename_i hc
      simp only [Bool.and_eq_true, Bool.not_eq_true'] at hc
      refine ⟨⟨fun h => (by cases h), ?_⟩, fun _ => rfl, fun h => (by cases h)⟩
      rintro (h | h)
      · rw [h] at hc; exact absurd hc.1 (by simp)
      · rw [hany.mpr h] at hc; exact absurd hc.2 (by simp)
    · rename_i hc
      refine ⟨⟨fun _ => ?_, fun _ => rfl⟩, fun h => absurd rfl h, fun _ q => removeTree_get ho fs _ q⟩
      by_cases hfo : force = true
      · exact Or.inl hfo
      · right
        apply hany.mp
        rw [Bool.not_eq_true] at hc hfo
        rw [hfo] at hc
        exact hc

/-- C129 is false at a crash: a removal of a family that is stopped leaves half a version among the packages. -/
theorem C129_crash_false :
    ∃ order, Lists order ∧ ∃ pre, Stops (removeFamily order depotRepo depot c!"maya" true).1 pre ∧
      Listed id depotRepo (run depot pre) c!"maya" c!"1.0" ∧
      ¬ Same depot (dirOf depotRepo c!"maya" c!"1.0") (run depot pre) (dirOf depotRepo c!"maya" c!"1.0") := by
  refine ⟨List.reverse, fun l => List.reverse_perm l,
    (removeFamily List.reverse depotRepo depot c!"maya" true).1.take 4, List.take_prefix _ _,
    ⟨Version.parse c!"1.0", by decide⟩, ?_⟩
  intro h
  exact absurd (h [c!"package.py"]) (by decide)

example : (removeFamily id depotRepo depot c!"maya" false).2 = .error .notEmpty ∧
    (removeFamily id depotRepo depot c!"maya" true).2 = .ok true ∧
    (removeFamily id depotRepo depot c!"../repo" true).2 = .error .invalid := by decide

/-! ## C130: lookups -/

/-- C130: a package that is found is one of the family's packages, and its directory spells the version; one of the family's
packages whose directory spells the version as it is asked for is found. -/
theorem C130_found_partial (order : Order) (r : Repo) (fs : FS) (name : Str) (hn : Component name)
    (v : Str) :
    (∀ p, getPackage order r fs name (some v) = some p →
      Listed order r fs name p.1 ∧ ∃ w, p.2 = some w ∧ Version.parse p.1 = some w ∧ w.asStr = v) ∧
    (Listed order r fs name v → (∃ w, Version.parse v = some w ∧ w.asStr = v) → (getPackage order r fs name (some v)).isSome) := by
  have hparse : ∀ x ∈ packages order r fs name, x.2 = Version.parse x.1 := by
    intro x hx
    unfold packages at hx
    simp only at hx
    split at hx
    · cases hx
    · obtain ⟨e, _, rfl⟩ := List.mem_map.mp hx
      rfl
  constructor
  · intro p hp
    unfold getPackage at hp
    split at hp
    · cases hp
    · rename_i f hf
      have : f = name := by
        unfold getFamily at hf
        split at hf
        · exact (Option.some.inj hf).symm
        · cases hf
      subst this
      simp only at hp
      have hm := List.mem_of_find?_eq_some hp
      have hc := List.find?_some hp
      obtain ⟨d, o⟩ := p
      have ho := hparse _ hm
      simp only at ho hc
      refine ⟨⟨o, hm⟩, ?_⟩
      cases o with
      | none => cases hc
      | some w => exact ⟨w, rfl, ho.symm, by simpa using hc⟩
  · rintro ⟨o, ho⟩ ⟨w, hw, hwv⟩
    have hd := listed_dir hn ⟨o, ho⟩
    unfold getPackage getFamily
    rw [join_component _ hn, if_pos hd]
    simp only
    rw [List.find?_isSome]
    refine ⟨(v, o), ho, ?_⟩
    have : o = some w := by rw [← hw]; exact hparse _ ho
    subst this
    simp [hwv]

/-- C130: the families are the directories of the repository whose names are listed, each once; a family is found exactly if
its directory is there. -/
theorem C130_families (order : Order) (ho : Lists order) (r : Repo) (fs : FS) (hok : Ok fs) :
    (mget fs r.location = some .dir → ∃ l, families order r fs = .ok l ∧ l.Nodup ∧
      ∀ n, n ∈ l ↔ mget fs (r.location ++ [n]) = some .dir ∧ Plain n) ∧
    (mget fs r.location ≠ some .dir → families order r fs = .error .io) ∧
    (∀ n, Component n → (getFamily r fs n = some n ↔ mget fs (r.location ++ [n]) = some .dir)) := by
  refine ⟨fun h => ?_, fun h => ?_, fun n hn => ?_⟩
  · unfold families
    rw [if_neg (by rw [h]; simp)]
    refine ⟨_, rfl, List.Nodup.sublist (List.filter_sublist.map _) (children_nodup ho hok.nodup _), fun n => ?_⟩
    rw [List.mem_map]
    constructor
    · rintro ⟨⟨m, e⟩, hm, rfl⟩
      obtain ⟨h1, h2⟩ := List.mem_filter.mp hm
      simp only [Bool.and_eq_true, Bool.not_eq_true'] at h2
      have : e = .dir := by simpa using h2.1
      subst this
      exact ⟨(children_mem ho hok.nodup _ _ _).mp h1, (hidden_iff m).mp h2.2⟩
    · rintro ⟨h1, h2⟩
      refine ⟨(n, .dir), List.mem_filter.mpr ⟨(children_mem ho hok.nodup _ _ _).mpr h1, ?_⟩, rfl⟩
      simp only [Bool.and_eq_true, Bool.not_eq_true']
      exact ⟨by simp, (hidden_iff n).mpr h2⟩
  · unfold families
    rw [if_pos h]
  · unfold getFamily
    rw [join_component _ hn]
    split <;> simp_all

example : families id depotRepo depot = .ok [c!"maya"] := by decide

/-- C130 is false for a package that is asked for without a version: what is found depends on the order in which the system
lists the directory, and is not the latest. -/
theorem C130_latest_false :
    ∃ (fs : FS) (order : Order), Ok fs ∧ Lists order ∧
      (getPackage id depotRepo fs c!"maya" none).map Prod.fst = some c!"1.0" ∧
      (getPackage order depotRepo fs c!"maya" none).map Prod.fst = some c!"2.0" := by
  refine ⟨depot.dropLast, List.reverse, ok_of (by decide) (by decide), fun l => List.reverse_perm l, by decide, by decide⟩

/-- C130 is false for names that are no names: a lookup of `../other/maya` finds a package of another repository. -/
theorem C130_outside_false :
    ∃ (fs : FS) (r : Repo), Ok fs ∧ r.location = [c!"other"] ∧
      (getPackage id r fs c!"../repo/maya" (some c!"1.0")).isSome := by
  refine ⟨([c!"other"], .dir) :: depot, ⟨[c!"other"], true⟩, ok_of (by decide) (by decide), rfl, by decide⟩

/-- C130 is false for a directory whose name is no version, or begins with `v`: it is among the packages and not found. -/
theorem C130_spelling_false :
    ∃ (fs : FS), Ok fs ∧ Listed id depotRepo fs c!"maya" c!"v1" ∧ getPackage id depotRepo fs c!"maya" (some c!"v1") = none := by
  refine ⟨[([], .dir), ([c!"repo"], .dir), ([c!"repo", c!"maya"], .dir), ([c!"repo", c!"maya", c!"v1"], .dir)],
    ok_of (by decide) (by decide), ⟨Version.parse c!"v1", by decide⟩, by decide⟩

/-- C130: the directory that is given for a package is in the repository, whatever the name and the version are. -/
theorem C130_payload (r : Repo) (name : Str) (version : Option Str) (p : Path) (h : payloadPath r name version = .ok p) :
    r.location <+: p ∧ p ≠ r.location ∧
    (Component name → (version = none → p = r.location ++ [name]) ∧ ∀ v, Component v → version = some v → p = dirOf r name v) := by
  unfold payloadPath at h
  split at h
  · cases h
  · rename_i q hq
    unfold familyPath at hq
    split at hq
    · rename_i hval
      obtain ⟨c, _, hc⟩ := valid_join hval
      rw [hc] at hq
      have hq := (Option.some.inj hq).symm
      subst hq
      have hname : Component name → c = name := by
        intro hn
        have := join_component [] hn
        rw [hc] at this
        simpa using this
      split at h
      · simp only [Except.ok.injEq] at h
        subst h
        refine ⟨List.prefix_append _ _, by simp, fun hn => ⟨fun _ => by rw [hname hn], fun v _ hv => by cases hv⟩⟩
      · split at h
        · rename_i v hv
          obtain ⟨d, _, hd⟩ := valid_join hv
          simp only [Except.ok.injEq] at h
          rw [hd] at h
          subst h
          refine ⟨(List.prefix_append _ _).trans (List.prefix_append _ _), by simp, fun hn => ⟨fun h => (by cases h), ?_⟩⟩
          intro w hw he
          have he := Option.some.inj he
          subst he
          have : d = v := by
            have := join_component [] hw
            rw [hd] at this
            simpa using this
          rw [this, hname hn]
          simp [dirOf]
        · cases h
    · cases hq

example : Listed id depotRepo depot c!"maya" c!"1.0" ∧
    (∃ w, Version.parse c!"1.0" = some w ∧ w.asStr = c!"1.0") ∧ (getPackage id depotRepo depot c!"maya" (some c!"1.0")).isSome :=
  ⟨⟨Version.parse c!"1.0", by decide⟩, ⟨_, rfl, by decide⟩, by decide⟩

end Rez.Props
