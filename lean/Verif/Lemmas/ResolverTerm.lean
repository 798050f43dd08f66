import Verif.Lemmas.ResolverLoop
/-!
# The resolver returns when families do not require each other in a circle
-/
namespace Rez
open Rez.Spec Rez.RState Rez.Resolver Classical

/-! ## What one step does, in detail -/

theorem tryCandidates_shape (env : Env) (t : Nat) (r : Requirement) (cs : List Package) (s : RState)
    (best : Option Package) (P : Package → Prop) (hcs : ∀ c ∈ cs, P c)
    (hb : ∀ c, best = some c → P c ∧ s.isRejected env c = false) :
    ((tryCandidates env t r cs s best).2.1 = true → ∃ c cf q, P c ∧ s.isRejected env c = false ∧
      RState.checkConflicts { s with conflicts := cf } c = none ∧
      tryCandidate { s with conflicts := cf } c r = some q ∧
      (tryCandidates env t r cs s best).1 = select env t { s with conflicts := cf } q.1.package.name q) ∧
    ((tryCandidates env t r cs s best).2.1 = false →
      (∃ cf, (tryCandidates env t r cs s best).1 = { s with conflicts := cf }) ∧
      ∀ c, (tryCandidates env t r cs s best).2.2 = some c → P c ∧ s.isRejected env c = false) := by
  induction cs generalizing s best with
  | nil =>
    refine ⟨(fun h => by cases h), fun _ => ⟨⟨s.conflicts, rfl⟩, hb⟩⟩
  | cons c cs ih =>
    have hP := hcs c (List.mem_cons_self ..)
    have hcs' := fun x hx => hcs x (List.mem_cons_of_mem _ hx)
    unfold tryCandidates
    by_cases hrj : s.isRejected env c = true
    · rw [if_pos hrj]; exact ih s best hcs' hb
    · rw [if_neg hrj]
      have hrj' : s.isRejected env c = false := by simpa using hrj
      simp only
      have hb' : ∀ x, (if best.isNone && (s.checkExplicit c).isNone then some c else best) = some x →
          P x ∧ s.isRejected env x = false := by
        intro x hx
        split at hx
        · simp at hx; subst hx; exact ⟨hP, hrj'⟩
        · exact hb x hx
      cases hc : s.checkConflicts c with
      | some k =>
        simp only
        have := ih { s with conflicts := s.conflicts ++ [k] } _ hcs' hb'
        exact this
      | none =>
        simp only
        cases ht : tryCandidate s c r with
        | some q =>
          simp only
          exact ⟨fun _ => ⟨c, s.conflicts, q, hP, hrj', hc, ht, rfl⟩, (fun h => by cases h)⟩
        | none => exact ih s _ hcs' hb'

theorem backtrackCandidates_shape (env : Env) (t : Nat) (n : Str) (cur : Info) (reqs : List Requirement)
    (prim : Requirement) (cs : List Package) (s : RState) :
    ((backtrackCandidates env t n cur reqs prim cs s).2 = true → ∃ c ∈ cs, ∃ r q,
      skipBacktrack env s cur.package reqs c = false ∧ tryCandidate s c r = some q ∧
      (backtrackCandidates env t n cur reqs prim cs s).1 = select env t s n q) ∧
    ((backtrackCandidates env t n cur reqs prim cs s).2 = false →
      (backtrackCandidates env t n cur reqs prim cs s).1 = s) := by
  induction cs with
  | nil => exact ⟨(fun h => by cases h), fun _ => rfl⟩
  | cons c cs ih =>
    unfold backtrackCandidates
    cases hs : skipBacktrack env s cur.package reqs c with
    | true =>
      simp only [if_true]
      refine ⟨fun h => ?_, ih.2⟩
      obtain ⟨c', hc', h'⟩ := ih.1 h
      exact ⟨c', List.mem_cons_of_mem _ hc', h'⟩
    | false =>
      simp only [Bool.false_eq_true, if_false]
      cases ht : tryCandidate s c (cur.satisfying.getD prim) with
      | some q => exact ⟨fun _ => ⟨c, List.mem_cons_self .., _, q, hs, ht, rfl⟩, (fun h => by cases h)⟩
      | none =>
        refine ⟨fun h => ?_, ih.2⟩
        obtain ⟨c', hc', h'⟩ := ih.1 h
        exact ⟨c', List.mem_cons_of_mem _ hc', h'⟩

theorem variantKeys_queue (s : RState) (q : List Requirement) (k : Nat) (vs : List (List Str)) :
    variantKeys { s with queue := q } k vs = variantKeys s k vs := by
  induction vs generalizing k with
  | nil => rfl
  | cons v vs ih => unfold variantKeys; rw [ih]; rfl

theorem tryCandidate_queue (s : RState) (q : List Requirement) (c : Package) (r : Requirement) :
    tryCandidate { s with queue := q } c r = tryCandidate s c r := by
  unfold tryCandidate selectVariant
  simp only [variantKeys_queue]
  rfl

/-- the queue plays no part in backtracking -/
theorem backtrackCandidates_queue (env : Env) (t : Nat) (n : Str) (cur : Info) (reqs : List Requirement)
    (prim : Requirement) (cs : List Package) (s : RState) (q : List Requirement) :
    (backtrackCandidates env t n cur reqs prim cs { s with queue := q }).2 =
      (backtrackCandidates env t n cur reqs prim cs s).2 ∧
    ((backtrackCandidates env t n cur reqs prim cs s).2 = true →
      (backtrackCandidates env t n cur reqs prim cs { s with queue := q }).1 =
        (backtrackCandidates env t n cur reqs prim cs s).1) := by
  induction cs with
  | nil => exact ⟨rfl, fun h => by cases h⟩
  | cons c cs ih =>
    unfold backtrackCandidates
    have e1 : skipBacktrack env { s with queue := q } cur.package reqs c = skipBacktrack env s cur.package reqs c := rfl
    have e2 : tryCandidate { s with queue := q } c (cur.satisfying.getD prim) =
        tryCandidate s c (cur.satisfying.getD prim) := tryCandidate_queue s q c _
    rw [e1, e2]
    by_cases hs : skipBacktrack env s cur.package reqs c = true
    · rw [if_pos hs, if_pos hs]; exact ih
    · rw [if_neg hs, if_neg hs]
      cases tryCandidate s c (cur.satisfying.getD prim) with
      | some x => exact ⟨rfl, fun _ => rfl⟩
      | none => exact ih

theorem backtrackLoop_queue (env : Env) (t : Nat) (ns : List Str) (s : RState) (q : List Requirement) {s' : RState}
    {b : Bool} (h : backtrackLoop env t ns s = some (s', b)) :
    ∃ s'', backtrackLoop env t ns { s with queue := q } = some (s'', b) ∧ (b = true → s'' = s') ∧
      (b = false → ∃ rj, s' = { s with rejected := rj } ∧ s'' = { s with rejected := rj, queue := q }) := by
  induction ns generalizing s with
  | nil =>
    simp [backtrackLoop] at h
    obtain ⟨rfl, rfl⟩ := h
    exact ⟨_, rfl, (fun h => by cases h), fun _ => ⟨s.rejected, rfl, rfl⟩⟩
  | cons n ns ih =>
    unfold backtrackLoop at h
    have key : ∀ s1 b1, backtrackPackage env t s n = some (s1, b1) →
        ∃ s2, backtrackPackage env t { s with queue := q } n = some (s2, b1) ∧ (b1 = true → s2 = s1) ∧
          (b1 = false → ∃ rj, s1 = { s with rejected := rj } ∧ s2 = { s with rejected := rj, queue := q }) := by
      intro s1 b1 hb
      unfold backtrackPackage at hb ⊢
      simp only
      cases hf : s.resolved.find? fun i => i.package.name == n with
      | none =>
        rw [hf] at hb
        simp at hb
        obtain ⟨rfl, rfl⟩ := hb
        exact ⟨_, rfl, (fun h => by cases h), fun _ => ⟨s.rejected, rfl, rfl⟩⟩
      | some cur =>
        rw [hf] at hb
        simp only at hb ⊢
        cases hg : mget s.active n with
        | none =>
          rw [hg] at hb
          simp at hb
          obtain ⟨rfl, rfl⟩ := hb
          exact ⟨_, rfl, (fun h => by cases h), fun _ => ⟨s.rejected, rfl, rfl⟩⟩
        | some l =>
          cases l with
          | nil =>
            rw [hg] at hb
            simp at hb
            obtain ⟨rfl, rfl⟩ := hb
            exact ⟨_, rfl, (fun h => by cases h), fun _ => ⟨s.rejected, rfl, rfl⟩⟩
          | cons prim rest =>
            rw [hg] at hb
            simp only at hb ⊢
            cases hc : candidates env prim with
            | none => rw [hc] at hb; cases hb
            | some cs =>
              rw [hc] at hb
              simp only [Option.map_some, Option.some.injEq] at hb ⊢
              have hrj : ∃ rj, s.reject env cur.package = { s with rejected := rj } ∧
                  ({ s with queue := q } : RState).reject env cur.package = { s with rejected := rj, queue := q } := by
                unfold reject; split
                · exact ⟨s.rejected, rfl, rfl⟩
                · exact ⟨_, rfl, rfl⟩
              obtain ⟨rj, h1, h2⟩ := hrj
              rw [h1] at hb
              rw [h2]
              have hq := backtrackCandidates_queue env t n cur (prim :: rest) prim cs { s with rejected := rj } q
              have hs1 := (backtrackCandidates_shape env t n cur (prim :: rest) prim cs { s with rejected := rj }).2
              have hs2 := (backtrackCandidates_shape env t n cur (prim :: rest) prim cs
                { s with rejected := rj, queue := q }).2
              rw [hb] at hq hs1
              refine ⟨_, Prod.ext rfl hq.1, hq.2, fun hbf => ⟨rj, hs1 hbf, hs2 (hq.1.trans hbf)⟩⟩
    cases hp : backtrackPackage env t s n with
    | none => rw [hp] at h; cases h
    | some x =>
      obtain ⟨s1, b1⟩ := x
      obtain ⟨s2, h2, ht, hfl⟩ := key s1 b1 hp
      rw [hp] at h
      unfold backtrackLoop
      rw [h2]
      cases b1 with
      | true =>
        simp at h
        obtain ⟨rfl, rfl⟩ := h
        exact ⟨s2, rfl, ht, (fun h => by cases h)⟩
      | false =>
        simp only at h ⊢
        obtain ⟨rj, e1, e2⟩ := hfl rfl
        obtain ⟨s3, h3, h4, h5⟩ := ih s1 h
        have e3 : s2 = { s1 with queue := q } := by rw [e1, e2]
        rw [e3]
        refine ⟨s3, h3, h4, fun hb => ?_⟩
        obtain ⟨rj', e4, e5⟩ := h5 hb
        exact ⟨rj', by rw [e4, e1], by rw [e5, e1]⟩

theorem needed_transfer {s s' : RState} (h1 : s'.original = s.original) (h2 : s'.pkgReqs = s.pkgReqs) {n : Str}
    (h : NeededIn s n) : NeededIn s' n := by
  induction h with
  | request hr hw hc => exact .request (h1 ▸ hr) hw hc
  | package hg _ hr hw ih => exact .package (h2 ▸ hg) ih hr hw

/-! ## The outer measure: versions not yet rejected -/

/-- packages of the families in question -/
def pool (env : Env) (fams : List Str) : List Package := fams.flatMap fun f => (env.repo f).getD []

/-- twice the number of packages not rejected, plus the number of resolved ones that are -/
def outer (env : Env) (fams : List Str) (s : RState) : Nat :=
  2 * ((pool env fams).filter fun p => !s.isRejected env p).length +
    (s.resolved.filter fun i => s.isRejected env i.package).length

theorem filter_length_lt {α : Type} {p q : α → Bool} {l : List α} (h : ∀ x ∈ l, q x = true → p x = true)
    {a : α} (ha : a ∈ l) (hp : p a = true) (hq : q a = false) : (l.filter q).length < (l.filter p).length := by
  induction l with
  | nil => cases ha
  | cons x l ih =>
    have hle : (l.filter q).length ≤ (l.filter p).length := by
      rw [← List.countP_eq_length_filter, ← List.countP_eq_length_filter]
      exact List.countP_mono_left fun y hy hqy => h y (List.mem_cons_of_mem _ hy) hqy
    rcases List.mem_cons.mp ha with rfl | ha
    · rw [List.filter_cons_of_pos hp, List.filter_cons_of_neg (by simp [hq])]
      simp only [List.length_cons]; omega
    · have := ih (fun y hy => h y (List.mem_cons_of_mem _ hy)) ha
      have hx := h x (List.mem_cons_self ..)
      by_cases h1 : q x = true
      · rw [List.filter_cons_of_pos h1, List.filter_cons_of_pos (hx h1)]
        simp only [List.length_cons]; omega
      · rw [List.filter_cons_of_neg h1]
        by_cases h2 : p x = true
        · rw [List.filter_cons_of_pos h2]; simp only [List.length_cons]; omega
        · rw [List.filter_cons_of_neg h2]; exact this

theorem filter_length_le {α : Type} {p q : α → Bool} {l : List α} (h : ∀ x ∈ l, q x = true → p x = true) :
    (l.filter q).length ≤ (l.filter p).length := by
  rw [← List.countP_eq_length_filter, ← List.countP_eq_length_filter]
  exact List.countP_mono_left h

/-- two predicates that differ on at most one family differ in count by at most one -/
theorem filter_length_family {p q : Info → Bool} {l : List Info} (hn : (l.map fun i => i.package.name).Nodup)
    (n : Str) (h : ∀ i ∈ l, i.package.name ≠ n → q i = true → p i = true) :
    (l.filter q).length ≤ (l.filter p).length + 1 := by
  induction l with
  | nil => simp
  | cons x l ih =>
    simp only [List.map_cons, List.nodup_cons] at hn
    by_cases hx : x.package.name = n
    · have hle : (l.filter q).length ≤ (l.filter p).length := filter_length_le fun i hi hq =>
        h i (List.mem_cons_of_mem _ hi) (fun he => hn.1 (List.mem_map.mpr ⟨i, hi, he.trans hx.symm⟩)) hq
      have h1 : ((x :: l).filter q).length ≤ (l.filter q).length + 1 := by
        rw [List.filter_cons]; split <;> simp
      have h2 : (l.filter p).length ≤ ((x :: l).filter p).length := by
        rw [List.filter_cons]; split <;> simp
      omega
    · have := ih hn.2 fun i hi => h i (List.mem_cons_of_mem _ hi)
      have hx' := h x (List.mem_cons_self ..) hx
      by_cases h1 : q x = true
      · rw [List.filter_cons_of_pos h1, List.filter_cons_of_pos (hx' h1)]
        simp only [List.length_cons]; omega
      · rw [List.filter_cons_of_neg h1]
        have h2 : (l.filter p).length ≤ ((x :: l).filter p).length := by
          rw [List.filter_cons]; split <;> simp
        omega

theorem isRejected_reject {env : Env} (so : SetOk env) (s : RState) (p p' : Package)
    (h : s.isRejected env p' = true) : (s.reject env p).isRejected env p' = true := by
  unfold reject
  cases hv : p.version with
  | none => exact h
  | some v =>
    simp only
    unfold isRejected at h ⊢
    cases hv' : p'.version with
    | none => rw [hv'] at h; cases h
    | some v' =>
      rw [hv'] at h
      simp only [mget_mset]
      by_cases he : p'.name = p.name
      · rw [if_pos he]
        rw [he] at h
        simp only
        cases hg : mget s.rejected p.name with
        | none => rw [hg] at h; cases h
        | some l =>
          rw [hg] at h
          simp only [Option.getD_some]
          split
          · exact h
          · exact so.kept _ _ _ h
      · rw [if_neg he]; exact h

theorem isRejected_reject_other {env : Env} (s : RState) (p p' : Package) (hn : p'.name ≠ p.name) :
    (s.reject env p).isRejected env p' = s.isRejected env p' := by
  unfold reject
  cases hv : p.version with
  | none => rfl
  | some v =>
    unfold isRejected
    simp only [mget_mset]
    rw [if_neg hn]

theorem isRejected_reject_self {env : Env} (so : SetOk env) (s : RState) (p : Package) {v : Version}
    (hv : p.version = some v) : (s.reject env p).isRejected env p = true := by
  unfold reject
  rw [hv]
  unfold isRejected
  rw [hv]
  simp only [mget_mset, if_true]
  split
  · assumption
  · exact so.inserted _ _

theorem reject_same {env : Env} (s : RState) (p p' : Package)
    (h : p.version = none ∨ s.isRejected env p = true) :
    (s.reject env p).isRejected env p' = s.isRejected env p' := by
  by_cases hn : p'.name = p.name
  · unfold reject
    cases hv : p.version with
    | none => rfl
    | some v =>
      rcases h with h | h
      · rw [h] at hv; cases hv
      · unfold isRejected at h ⊢
        rw [hv] at h
        cases hg : mget s.rejected p.name with
        | none => rw [hg] at h; cases h
        | some l =>
          rw [hg] at h
          simp only [Option.getD_some]
          simp only at h
          rw [if_pos h]
          simp only [mget_mset]
          rw [if_pos hn, hn, hg]
  · exact isRejected_reject_other s p p' hn

theorem reject_fields (env : Env) (s : RState) (p : Package) : ∃ rj, s.reject env p = { s with rejected := rj } := by
  unfold reject; split
  · exact ⟨s.rejected, rfl⟩
  · exact ⟨_, rfl⟩

theorem reject_resolved (env : Env) (s : RState) (p : Package) : (s.reject env p).resolved = s.resolved := by
  obtain ⟨rj, h⟩ := reject_fields env s p
  rw [h]

theorem outer_reject {env : Env} (so : SetOk env) {fams : List Str} {s : RState}
    (hn : (s.resolved.map fun i => i.package.name).Nodup) {p : Package} (hp : p ∈ pool env fams) :
    outer env fams (s.reject env p) ≤ outer env fams s ∧
    (∀ v, p.version = some v → s.isRejected env p = false →
      outer env fams (s.reject env p) < outer env fams s) := by
  by_cases h : p.version = none ∨ s.isRejected env p = true
  · have e : (s.reject env p).isRejected env = s.isRejected env := funext fun p' => reject_same s p p' h
    have : outer env fams (s.reject env p) = outer env fams s := by
      unfold outer; rw [e, reject_resolved]
    refine ⟨this.le, fun v hv hr => ?_⟩
    rcases h with h | h
    · rw [h] at hv; cases hv
    · rw [h] at hr; cases hr
  · push Not at h
    obtain ⟨v, hv⟩ := Option.ne_none_iff_exists'.mp h.1
    have hr : s.isRejected env p = false := by simpa using h.2
    have h1 : ((pool env fams).filter fun p' => !(s.reject env p).isRejected env p').length <
        ((pool env fams).filter fun p' => !s.isRejected env p').length := by
      refine filter_length_lt ?_ hp ?_ ?_
      · intro x _ hx
        simp only [Bool.not_eq_true'] at hx ⊢
        by_contra hc
        rw [isRejected_reject so s p x (by simpa using hc)] at hx
        cases hx
      · simp [hr]
      · simp [isRejected_reject_self so s p hv]
    have h2 : ((s.reject env p).resolved.filter fun i => (s.reject env p).isRejected env i.package).length ≤
        (s.resolved.filter fun i => s.isRejected env i.package).length + 1 := by
      rw [reject_resolved]
      refine filter_length_family hn p.name fun i _ hi hx => ?_
      rw [isRejected_reject_other s p i.package hi] at hx
      exact hx
    have : outer env fams (s.reject env p) < outer env fams s := by unfold outer; omega
    exact ⟨this.le, fun _ _ _ => this⟩

theorem replaceFirst_rejected {f : Info → Bool} {l : List Info} {i : Info} (hi : f i = false) :
    ((replaceFirst l i).filter f).length ≤ (l.filter f).length ∧
    ∀ j ∈ l, j.package.name = i.package.name → (∀ k ∈ l, k.package.name = i.package.name → k = j) → f j = true →
      ((replaceFirst l i).filter f).length < (l.filter f).length := by
  induction l with
  | nil => simp [replaceFirst, hi]
  | cons x l ih =>
    unfold replaceFirst
    by_cases hx : x.package.name = i.package.name
    · rw [if_pos hx]
      rw [List.filter_cons_of_neg (by simp [hi])]
      constructor
      · rw [List.filter_cons]; split <;> simp
      · intro j _ _ huniq hj
        have : x = j := huniq x (List.mem_cons_self ..) hx
        subst this
        rw [List.filter_cons_of_pos hj]; simp
    · rw [if_neg hx]
      constructor
      · rw [List.filter_cons, List.filter_cons]
        split
        · simp only [List.length_cons]; omega
        · exact ih.1
      · intro j hj hn huniq hf
        have hj' : j ∈ l := by
          rcases List.mem_cons.mp hj with rfl | hj
          · exact absurd hn hx
          · exact hj
        have := ih.2 j hj' hn (fun k hk => huniq k (List.mem_cons_of_mem _ hk)) hf
        rw [List.filter_cons, List.filter_cons]
        split
        · simp only [List.length_cons]; omega
        · exact this

/-- the state in which reachability is computed when a package is selected -/
def selecting (s : RState) (n : Str) (q : Info × List Requirement × List Requirement) : RState :=
  { s.addResolved q.1 with
    pkgReqs := mset s.pkgReqs n q.2.1, pkgConflicts := mset s.pkgConflicts n q.2.2 }

theorem select_resolved (env : Env) (t : Nat) (s : RState) (n : Str) (q : Info × List Requirement × List Requirement) :
    (select env t s n q).resolved =
      (replaceFirst s.resolved q.1).filter fun i => decide (i.package.name ∈ (selecting s n q).reachable) := rfl

theorem outer_select {env : Env} {fams : List Str} (t : Nat) {s : RState} {n : Str}
    {q : Info × List Requirement × List Requirement} (hn : (s.resolved.map fun i => i.package.name).Nodup)
    (hq : s.isRejected env q.1.package = false) :
    outer env fams (select env t s n q) ≤ outer env fams s ∧
    ∀ j ∈ s.resolved, j.package.name = q.1.package.name → s.isRejected env j.package = true →
      outer env fams (select env t s n q) < outer env fams s := by
  have e : ∀ p, (select env t s n q).isRejected env p = s.isRejected env p := fun p => rfl
  have hle : ((select env t s n q).resolved.filter fun i => s.isRejected env i.package).length ≤
      ((replaceFirst s.resolved q.1).filter fun i => s.isRejected env i.package).length := by
    rw [select_resolved]
    exact (List.filter_sublist.filter _).length_le
  have hr := replaceFirst_rejected (f := fun i => s.isRejected env i.package) (l := s.resolved) (i := q.1) hq
  constructor
  · have := hr.1
    unfold outer
    simp only [e]
    omega
  · intro j hj hjn hjr
    have := hr.2 j hj hjn (fun k hk hkn => mem_nodup_name hn hk hj (hkn.trans hjn.symm)) hjr
    unfold outer
    simp only [e]
    omega

/-! ## The inner measure: families in order -/

/-- the state of a family: absent, with an unmet requirement, without version, settled -/
noncomputable def value (s : RState) (f : Str) : Nat :=
  if ∃ i ∈ s.resolved, i.package.name = f then
    if ∃ i ∈ s.resolved, i.package.name = f ∧ ∃ r, s.Tracked r ∧ r.name = f ∧ ¬ InRange r i.package then 2
    else if ∃ i ∈ s.resolved, i.package.name = f ∧ i.package.version = none then 1
    else 0
  else 3

theorem value_le (s : RState) (f : Str) : value s f ≤ 3 := by
  unfold value; split <;> [split <;> [omega; split <;> omega]; omega]

/-- the values as the digits of a number -/
noncomputable def inner (s : RState) : List Str → Nat
  | [] => 0
  | f :: fs => value s f * 4 ^ fs.length + inner s fs

theorem inner_lt_pow (s : RState) (fs : List Str) : inner s fs < 4 ^ fs.length := by
  induction fs with
  | nil => simp [inner]
  | cons f fs ih =>
    simp only [inner, List.length_cons, Nat.pow_succ]
    have := value_le s f
    have h2 : value s f * 4 ^ fs.length ≤ 3 * 4 ^ fs.length := Nat.mul_le_mul_right _ this
    omega

/-- the first family whose value changes decides -/
theorem inner_lt {s s' : RState} (fams : List Str) {n : Str} (hn : n ∈ fams)
    (hbefore : ∀ f ∈ fams, fams.idxOf f < fams.idxOf n → value s' f = value s f) (hlt : value s' n < value s n) :
    inner s' fams < inner s fams := by
  induction fams with
  | nil => cases hn
  | cons x fs ih =>
    simp only [inner]
    by_cases hx : x = n
    · subst hx
      have h1 := inner_lt_pow s' fs
      have h2 : (value s' x + 1) * 4 ^ fs.length ≤ value s x * 4 ^ fs.length := Nat.mul_le_mul_right _ hlt
      rw [Nat.add_mul, Nat.one_mul] at h2
      omega
    · have hn' : n ∈ fs := (List.mem_cons.mp hn).resolve_left (Ne.symm hx)
      have hx0 : value s' x = value s x := by
        apply hbefore x (List.mem_cons_self ..)
        rw [List.idxOf_cons_self, List.idxOf_cons_ne _ hx]
        omega
      have := ih hn' fun f hf hlt => by
        by_cases hfx : x = f
        · subst hfx; exact hx0
        · apply hbefore f (List.mem_cons_of_mem _ hf)
          rw [List.idxOf_cons_ne _ hx, List.idxOf_cons_ne _ hfx]
          omega
      rw [hx0]
      omega

theorem value_congr {s s' : RState} (h1 : s'.original = s.original) (h2 : s'.resolved = s.resolved)
    (h3 : s'.pkgReqs = s.pkgReqs) : value s' = value s := by
  funext f
  have : ∀ r, s'.Tracked r ↔ s.Tracked r := fun r => by unfold Tracked; rw [h1, h2, h3]
  unfold value
  simp only [h2, this]

theorem inner_congr {s s' : RState} (fams : List Str) (h1 : s'.original = s.original) (h2 : s'.resolved = s.resolved)
    (h3 : s'.pkgReqs = s.pkgReqs) : inner s' fams = inner s fams := by
  induction fams with
  | nil => rfl
  | cons f fs ih => simp only [inner, ih, value_congr h1 h2 h3]

/-! ## Selecting a package leaves earlier families alone -/

section Layers
variable {env : Env} {reqs : List Requirement} {fams : List Str} (lay : Layered env reqs fams)
include lay

theorem deps_later {i : Info} {deps confl : List Requirement} (hv : ValidInfo env i deps confl)
    (hi : i.package.name ∈ fams) {r : Requirement} (hr : r ∈ deps) :
    r.name ∈ fams ∧ fams.idxOf i.package.name < fams.idxOf r.name := by
  obtain ⟨raw, hd, hc, hp⟩ := (deps_iff hv r).mp hr
  refine lay.later i.package hv.listed hi raw ?_ hc r hp
  rcases hd with h | ⟨k, vs, _, hg, hm⟩
  · exact .inl h
  · exact .inr ⟨vs, List.mem_of_getElem? hg, hm⟩

theorem needed_fams {s : RState} (h : Inv env s) (ho : s.original = reqs) {m : Str} (hm : NeededIn s m) : m ∈ fams := by
  induction hm with
  | request hr hw hc => exact lay.request _ (ho ▸ hr) hc
  | @package n deps r hg _ hr hw ih =>
    obtain ⟨i, hi, rfl⟩ := h.reqOwner n ((mget_isSome_iff _ _).mp ⟨deps, hg⟩)
    obtain ⟨deps', confl, h1, _, hv⟩ := h.valid i hi
    rw [hg] at h1
    simp at h1
    subst h1
    exact (deps_later lay hv ih hr).1

theorem needed_selecting {s : RState} (h : Inv env s) (ho : s.original = reqs) {n : Str}
    {q : Info × List Requirement × List Requirement} (hq : ValidInfo env q.1 q.2.1 q.2.2) (hn : q.1.package.name = n)
    {m : Str} (hm : fams.idxOf m ≤ fams.idxOf n) : NeededIn (selecting s n q) m ↔ NeededIn s m := by
  constructor
  · intro hd
    have key : ∀ m, NeededIn (selecting s n q) m → m ∈ fams ∧ (fams.idxOf m ≤ fams.idxOf n → NeededIn s m) := by
      intro m hd
      induction hd with
      | request hr hw hc => exact ⟨lay.request _ (ho ▸ hr) hc, fun _ => .request hr hw hc⟩
      | @package n' deps r hg _ hr hw ih =>
        have hg : mget (mset s.pkgReqs n q.2.1) n' = some deps := hg
        rw [mget_mset] at hg
        by_cases he : n' = n
        · rw [if_pos he] at hg
          simp at hg
          subst hg
          have := deps_later lay hq (by rw [hn, ← he]; exact ih.1) hr
          refine ⟨this.1, fun hle => ?_⟩
          rw [hn] at this
          omega
        · rw [if_neg he] at hg
          obtain ⟨i, hi, rfl⟩ := h.reqOwner n' ((mget_isSome_iff _ _).mp ⟨deps, hg⟩)
          obtain ⟨deps', confl, h1, _, hv⟩ := h.valid i hi
          rw [hg] at h1
          simp at h1
          subst h1
          have := deps_later lay hv ih.1 hr
          exact ⟨this.1, fun hle => .package hg (ih.2 (by omega)) hr hw⟩
    exact (key m hd).2 hm
  · intro hd
    have key : ∀ m, NeededIn s m → (fams.idxOf m ≤ fams.idxOf n → NeededIn (selecting s n q) m) := by
      intro m hd
      induction hd with
      | request hr hw hc => exact fun _ => .request hr hw hc
      | @package n' deps r hg hneed hr hw ih =>
        intro hle
        obtain ⟨i, hi, rfl⟩ := h.reqOwner n' ((mget_isSome_iff _ _).mp ⟨deps, hg⟩)
        obtain ⟨deps', confl, h1, _, hv⟩ := h.valid i hi
        rw [hg] at h1
        simp at h1
        subst h1
        have := deps_later lay hv (needed_fams lay h ho hneed) hr
        refine .package (s := selecting s n q) (deps := deps) ?_ (ih (by omega)) hr hw
        show mget (mset s.pkgReqs n q.2.1) i.package.name = some deps
        rw [mget_mset, if_neg, hg]
        rintro he
        rw [he] at this
        omega
    exact key m hd hm

theorem select_mem {s : RState} (h : Inv env s) (ho : s.original = reqs) (t : Nat) {n : Str}
    {q : Info × List Requirement × List Requirement} (hq : ValidInfo env q.1 q.2.1 q.2.2) (hn : q.1.package.name = n)
    {i : Info} (hi : fams.idxOf i.package.name ≤ fams.idxOf n) :
    i ∈ (select env t s n q).resolved ↔
      (i = q.1 ∧ NeededIn s n) ∨ (i ∈ s.resolved ∧ i.package.name ≠ n) := by
  rw [select_resolved, List.mem_filter, decide_eq_true_eq, reachable_iff,
    needed_selecting lay h ho hq hn hi, replaceFirst_mem h.nodup, hn]
  constructor
  · rintro ⟨rfl | hm, hd⟩
    · exact .inl ⟨rfl, hn ▸ hd⟩
    · exact .inr hm
  · rintro (⟨rfl, hd⟩ | hm)
    · exact ⟨.inl rfl, hn.symm ▸ hd⟩
    · exact ⟨.inr hm, h.needed i hm.1⟩

/-- selecting `q` for a needed family `n`: what the families up to `n` look like afterwards -/
theorem select_layers {s : RState} (h : Inv env s) (ho : s.original = reqs) (t : Nat) {n : Str}
    {q : Info × List Requirement × List Requirement} (hq : ValidInfo env q.1 q.2.1 q.2.2) (hn : q.1.package.name = n)
    (hneed : NeededIn s n) (h' : Inv env (select env t s n q)) :
    (∀ r, fams.idxOf r.name ≤ fams.idxOf n → ((select env t s n q).Tracked r ↔ s.Tracked r)) ∧
    (∀ f ∈ fams, fams.idxOf f < fams.idxOf n → value (select env t s n q) f = value s f) ∧
    (∀ i ∈ (select env t s n q).resolved, i.package.name = n → i = q.1) ∧ q.1 ∈ (select env t s n q).resolved := by
  have htr : ∀ r, fams.idxOf r.name ≤ fams.idxOf n → ((select env t s n q).Tracked r ↔ s.Tracked r) := by
    intro r hr
    rw [tracked_iff h', tracked_iff h]
    refine or_congr_right ?_
    constructor
    · rintro ⟨i, hi, raw, hd, hc, hp⟩
      have hlt : fams.idxOf i.package.name < fams.idxOf r.name := by
        obtain ⟨deps, confl, _, _, hv⟩ := h'.valid i hi
        exact (deps_later lay hv (needed_fams lay h' ho (h'.needed i hi)) ((deps_iff hv r).mpr ⟨raw, hd, hc, hp⟩)).2
      rcases (select_mem lay h ho t hq hn (i := i) (by omega)).mp hi with ⟨rfl, _⟩ | ⟨hi', _⟩
      · rw [hn] at hlt; omega
      · exact ⟨i, hi', raw, hd, hc, hp⟩
    · rintro ⟨i, hi, raw, hd, hc, hp⟩
      have hlt : fams.idxOf i.package.name < fams.idxOf r.name := by
        obtain ⟨deps, confl, _, _, hv⟩ := h.valid i hi
        exact (deps_later lay hv (needed_fams lay h ho (h.needed i hi)) ((deps_iff hv r).mpr ⟨raw, hd, hc, hp⟩)).2
      refine ⟨i, (select_mem lay h ho t hq hn (i := i) (by omega)).mpr (.inr ⟨hi, ?_⟩), raw, hd, hc, hp⟩
      intro he
      rw [he] at hlt
      omega
  refine ⟨htr, ?_, ?_, ?_⟩
  · intro f hf hlt
    have hmem : ∀ i : Info, i.package.name = f → (i ∈ (select env t s n q).resolved ↔ i ∈ s.resolved) := by
      intro i hif
      rw [select_mem lay h ho t hq hn (i := i) (by rw [hif]; omega)]
      constructor
      · rintro (⟨rfl, _⟩ | hm)
        · exfalso
          rw [hn] at hif
          rw [hif] at hlt
          omega
        · exact hm.1
      · intro hm
        refine .inr ⟨hm, fun he => ?_⟩
        rw [← hif, he] at hlt
        omega
    have e1 : (∃ i ∈ (select env t s n q).resolved, i.package.name = f) ↔ ∃ i ∈ s.resolved, i.package.name = f :=
      exists_congr fun i => by
        constructor
        · rintro ⟨a, b⟩; exact ⟨(hmem i b).mp a, b⟩
        · rintro ⟨a, b⟩; exact ⟨(hmem i b).mpr a, b⟩
    have e2 : (∃ i ∈ (select env t s n q).resolved, i.package.name = f ∧
          ∃ r, (select env t s n q).Tracked r ∧ r.name = f ∧ ¬ InRange r i.package) ↔
        ∃ i ∈ s.resolved, i.package.name = f ∧ ∃ r, s.Tracked r ∧ r.name = f ∧ ¬ InRange r i.package :=
      exists_congr fun i => by
        constructor
        · rintro ⟨a, b, r, c, d, e⟩
          exact ⟨(hmem i b).mp a, b, r, (htr r (by rw [d]; omega)).mp c, d, e⟩
        · rintro ⟨a, b, r, c, d, e⟩
          exact ⟨(hmem i b).mpr a, b, r, (htr r (by rw [d]; omega)).mpr c, d, e⟩
    have e3 : (∃ i ∈ (select env t s n q).resolved, i.package.name = f ∧ i.package.version = none) ↔
        ∃ i ∈ s.resolved, i.package.name = f ∧ i.package.version = none :=
      exists_congr fun i => by
        constructor
        · rintro ⟨a, b, c⟩; exact ⟨(hmem i b).mp a, b, c⟩
        · rintro ⟨a, b, c⟩; exact ⟨(hmem i b).mpr a, b, c⟩
    unfold value
    simp only [e1, e2, e3]
  · intro i hi hin
    rcases (select_mem lay h ho t hq hn (i := i) (by rw [hin])).mp hi with ⟨rfl, _⟩ | ⟨_, hne⟩
    · rfl
    · exact absurd hin hne
  · exact (select_mem lay h ho t hq hn (i := q.1) (by rw [hn])).mpr (.inl ⟨rfl, hneed⟩)

end Layers

/-! ## Every step makes progress -/

/-- the order in which the loop makes progress -/
def Progress (env : Env) (fams : List Str) (s' s : RState) : Prop :=
  outer env fams s' < outer env fams s ∨
    (outer env fams s' ≤ outer env fams s ∧
      (inner s' fams < inner s fams ∨ (inner s' fams = inner s fams ∧ s'.queue.length < s.queue.length)))

theorem progress_wf (env : Env) (fams : List Str) : WellFounded (Progress env fams) := by
  have hwf : WellFounded (Prod.Lex (· < · : Nat → Nat → Prop) (Prod.Lex (· < · : Nat → Nat → Prop)
      (· < · : Nat → Nat → Prop))) :=
    WellFounded.prod_lex Nat.lt_wfRel.wf (WellFounded.prod_lex Nat.lt_wfRel.wf Nat.lt_wfRel.wf)
  refine Subrelation.wf (r := InvImage _ fun s : RState => (outer env fams s, inner s fams, s.queue.length)) ?_
    (InvImage.wf _ hwf)
  intro a b h
  rcases h with h | ⟨h1, h⟩
  · exact Prod.Lex.left _ _ h
  · rcases Nat.lt_or_eq_of_le h1 with h1 | h1
    · exact Prod.Lex.left _ _ h1
    · show Prod.Lex _ _ (_, _) (_, _)
      rw [h1]
      refine Prod.Lex.right _ ?_
      rcases h with h | ⟨h2, h⟩
      · exact Prod.Lex.left _ _ h
      · rw [h2]; exact Prod.Lex.right _ h

theorem tracked_of_active {env : Env} {s : RState} (h : Inv env s) {r : Requirement} (ha : s.isActive r = true) :
    ∃ r', s.Tracked r' ∧ r'.eqv r = true := by
  unfold isActive hasReq at ha
  obtain ⟨r', hm, he⟩ := List.any_eq_true.mp ha
  exact ⟨r', (h.activeOnly r.name r' hm).2, he⟩

theorem tracked_needed {env : Env} {s : RState} (h : Inv env s) {r : Requirement} (ht : s.Tracked r)
    (hw : r.weak = false) : NeededIn s r.name := by
  rcases ht with ⟨hr, hc⟩ | ⟨i, hi, deps, hg, hr⟩
  · exact .request hr hw hc
  · exact .package hg (h.needed i hi) hr hw

theorem eqv_weak {a b : Requirement} (h : a.eqv b = true) : a.weak = b.weak := by
  unfold Requirement.eqv at h
  simp only [Bool.and_eq_true, beq_iff_eq] at h
  exact h.1.1.1.1.2

theorem tracked_stated {env : Env} {reqs : List Requirement} {s : RState} (h : Inv env s) (ho : s.original = reqs)
    {r : Requirement} (ht : s.Tracked r) : Stated env reqs r := by
  rcases (tracked_iff h r).mp ht with ⟨hr, _⟩ | ⟨i, hi, raw, hd, hc, hp⟩
  · exact .inl (ho ▸ hr)
  · obtain ⟨_, _, _, _, hv⟩ := h.valid i hi
    refine .inr ⟨i.package, hv.listed, raw, ?_, hc, hp⟩
    rcases hd with h | ⟨k, vs, _, hg, hm⟩
    · exact .inl h
    · exact .inr ⟨vs, List.mem_of_getElem? hg, hm⟩

/-- the queue only holds requirements in force -/
def QueueOk (s : RState) : Prop := ∀ r ∈ s.queue, s.Tracked r

theorem select_queueOk (env : Env) (t : Nat) (s : RState) (n : Str) (q : Info × List Requirement × List Requirement) :
    QueueOk (select env t s n q) := by
  intro r hr
  have hr : r ∈ ((select env t s n q).original.filter fun r => !r.conflict) ++
      (select env t s n q).resolved.flatMap fun i => (mget (select env t s n q).pkgReqs i.package.name).getD [] := hr
  rcases List.mem_append.mp hr with hr | hr
  · obtain ⟨h1, h2⟩ := List.mem_filter.mp hr
    exact .inl ⟨h1, by simpa using h2⟩
  · obtain ⟨i, hi, hm⟩ := List.mem_flatMap.mp hr
    cases hg : mget (select env t s n q).pkgReqs i.package.name with
    | none => rw [hg] at hm; cases hm
    | some deps => rw [hg] at hm; exact .inr ⟨i, hi, deps, hg, hm⟩

theorem backtrackLoop_queueOk (env : Env) (t : Nat) (ns : List Str) {s s' : RState}
    (h : backtrackLoop env t ns s = some (s', true)) : QueueOk s' := by
  induction ns generalizing s with
  | nil => cases h
  | cons n ns ih =>
    unfold backtrackLoop at h
    cases hp : backtrackPackage env t s n with
    | none => rw [hp] at h; cases h
    | some x =>
      obtain ⟨s1, b1⟩ := x
      rw [hp] at h
      cases b1 with
      | false => exact ih h
      | true =>
        simp at h
        subst h
        unfold backtrackPackage at hp
        split at hp
        · simp at hp
        · split at hp
          · simp at hp
          · simp at hp
          · obtain ⟨cs, _, hc⟩ := Option.map_eq_some_iff.mp hp
            have hs := backtrackCandidates_shape env t n
            have := (hs _ _ _ cs (s.reject env _)).1 (by rw [hc])
            obtain ⟨_, _, _, q, _, _, he⟩ := this
            rw [hc] at he
            simp only at he
            rw [he]
            exact select_queueOk env t _ _ q

/-- requirements in force, up to equality, hold of a package that satisfies the active ones -/
theorem tracked_inRange {env : Env} {reqs : List Requirement} (sp : SpellingsAgree env reqs) {s : RState}
    (h : Inv env s) (ho : s.original = reqs) {p : Package}
    (hl : Listed env p) (ha : ∀ r ∈ (mget s.active p.name).getD [], InRange r p) {r : Requirement}
    (ht : s.Tracked r) (hn : r.name = p.name) : InRange r p := by
  have hact := h.active r ht
  unfold isActive hasReq at hact
  obtain ⟨r', hm, he⟩ := List.any_eq_true.mp hact
  exact sp r' r (tracked_stated h ho (h.activeOnly _ r' hm).2) (tracked_stated h ho ht) he p hl (ha r' (hn ▸ hm))

section Steps
variable {env : Env} {reqs : List Requirement} {fams : List Str}

/-- a package that is taken for a needed family -/
theorem select_progress (lay : Layered env reqs fams) {s : RState} (h : Inv env s)
    (ho : s.original = reqs) (t : Nat) {n : Str} {q : Info × List Requirement × List Requirement}
    (hq : ValidInfo env q.1 q.2.1 q.2.2) (hn : q.1.package.name = n) (hneed : NeededIn s n)
    (h' : Inv env (select env t s n q)) (hlt : value (select env t s n q) n < value s n) :
    inner (select env t s n q) fams < inner s fams :=
  inner_lt fams (needed_fams lay h ho hneed) (select_layers lay h ho t hq hn hneed h').2.1 hlt

/-- the value of the family of a package just taken that satisfies all active requirements -/
theorem select_value (lay : Layered env reqs fams) (sp : SpellingsAgree env reqs) {s : RState} (h : Inv env s)
    (ho : s.original = reqs) (t : Nat) {n : Str} {q : Info × List Requirement × List Requirement}
    (hq : ValidInfo env q.1 q.2.1 q.2.2) (hn : q.1.package.name = n) (hneed : NeededIn s n)
    (h' : Inv env (select env t s n q))
    (ha : ∀ r ∈ (mget s.active n).getD [], InRange r q.1.package) :
    value (select env t s n q) n ≤ 1 ∧ (q.1.package.version ≠ none → value (select env t s n q) n = 0) := by
  obtain ⟨htr, _, hown, hmem⟩ := select_layers lay h ho t hq hn hneed h'
  have h2 : ¬ ∃ i ∈ (select env t s n q).resolved, i.package.name = n ∧
      ∃ r, (select env t s n q).Tracked r ∧ r.name = n ∧ ¬ InRange r i.package := by
    rintro ⟨i, hi, hin, r, ht, hr, hne⟩
    rw [hown i hi hin] at hne
    exact hne (tracked_inRange sp h ho hq.listed (hn.symm ▸ ha) ((htr r (by rw [hr])).mp ht) (hr.trans hn.symm))
  unfold value
  rw [if_pos ⟨q.1, hmem, hn⟩, if_neg h2]
  constructor
  · split <;> omega
  · intro hv
    rw [if_neg]
    rintro ⟨i, hi, hin, hvn⟩
    rw [hown i hi hin] at hvn
    exact hv hvn

theorem value_unmet {s : RState} {n : Str}
    (ht : ∃ r', s.Tracked r' ∧ r'.name = n ∧ ∀ i ∈ s.resolved, i.package.name = n → ¬ InRange r' i.package) :
    2 ≤ value s n := by
  obtain ⟨r', ht, hn', hx⟩ := ht
  unfold value
  split
  · rename_i h
    obtain ⟨i, hi, hin⟩ := h
    rw [if_pos ⟨i, hi, hin, r', ht, hn', hx i hi hin⟩]
  · omega

theorem value_absent {s : RState} {n : Str} (h : ∀ i ∈ s.resolved, i.package.name ≠ n) : value s n = 3 := by
  unfold value
  rw [if_neg]
  rintro ⟨i, hi, hin⟩
  exact h i hi hin

theorem value_present {s : RState} {n : Str} {i : Info} (hi : i ∈ s.resolved) (hn : i.package.name = n) :
    value s n ≤ 2 := by
  unfold value
  rw [if_pos ⟨i, hi, hn⟩]
  split <;> [omega; split <;> omega]

theorem listed_pool {p : Package} (hl : Listed env p) (hf : p.name ∈ fams) : p ∈ pool env fams := by
  obtain ⟨ps, hps, hm⟩ := hl
  exact List.mem_flatMap.mpr ⟨p.name, hf, by rw [hps]; exact hm⟩

theorem reject_inv {s : RState} (h : Inv env s) (rj : List (Str × List Version)) :
    Inv env { s with rejected := rj } := inv_congr h rfl rfl rfl rfl rfl rfl rfl rfl fun _ h => h

theorem inv_ready {s : RState} (h : Inv env s) : Ready env s := ⟨h.toCore, h.conflicts⟩

/-- one source: either it makes progress, or nothing but rejections happens -/
theorem backtrackPackage_progress (ok : EnvOk env) (so : SetOk env) (sp : SpellingsAgree env reqs)
    (lay : Layered env reqs fams) {s s' : RState} (h : Inv env s) (ho : s.original = reqs) (t : Nat) {n : Str} {b : Bool}
    (hb : backtrackPackage env t s n = some (s', b)) :
    (b = true → outer env fams s' < outer env fams s ∨
      (outer env fams s' ≤ outer env fams s ∧ inner s' fams < inner s fams)) ∧
    (b = false → outer env fams s' ≤ outer env fams s ∧ ∃ rj, s' = { s with rejected := rj }) := by
  have same : outer env fams s ≤ outer env fams s ∧ ∃ rj, s = { s with rejected := rj } := ⟨le_rfl, s.rejected, rfl⟩
  unfold backtrackPackage at hb
  cases hf : s.resolved.find? fun i => i.package.name == n with
  | none =>
    rw [hf] at hb
    simp at hb
    obtain ⟨rfl, rfl⟩ := hb
    exact ⟨(fun h => by cases h), fun _ => same⟩
  | some cur =>
    have hcur : cur ∈ s.resolved := List.mem_of_find?_eq_some hf
    have hcn : cur.package.name = n := by have := List.find?_some hf; simpa using this
    rw [hf] at hb
    simp only at hb
    cases hg : mget s.active n with
    | none =>
      rw [hg] at hb
      simp at hb
      obtain ⟨rfl, rfl⟩ := hb
      exact ⟨(fun h => by cases h), fun _ => same⟩
    | some l =>
      cases l with
      | nil =>
        rw [hg] at hb
        simp at hb
        obtain ⟨rfl, rfl⟩ := hb
        exact ⟨(fun h => by cases h), fun _ => same⟩
      | cons prim rest =>
        rw [hg] at hb
        simp only at hb
        cases hc : candidates env prim with
        | none => rw [hc] at hb; cases hb
        | some cs =>
          rw [hc] at hb
          simp only [Option.map_some, Option.some.injEq] at hb
          have hprim : prim.name = n := (h.activeOnly n prim (by rw [hg]; simp)).1
          have hneed : NeededIn s n := hcn ▸ h.needed cur hcur
          obtain ⟨_, _, _, _, hvc⟩ := h.valid cur hcur
          have hpool : cur.package ∈ pool env fams :=
            listed_pool hvc.listed (hcn.symm ▸ needed_fams lay h ho hneed)
          have hout := outer_reject so (s := s) h.nodup hpool
          obtain ⟨rj, hrj⟩ := reject_fields env s cur.package
          have hinv : Inv env (s.reject env cur.package) := by rw [hrj]; exact reject_inv h rj
          have hspec := backtrackCandidates_spec ok t n cur (prim :: rest) prim cs (s.reject env cur.package)
            (inv_ready hinv) fun c hcm => ⟨(candidates_mem ok hc hcm).2.1, (candidates_mem ok hc hcm).1.trans hprim⟩
          have hshape := backtrackCandidates_shape env t n cur (prim :: rest) prim cs (s.reject env cur.package)
          rw [hb] at hspec hshape
          constructor
          · intro hbt
            obtain ⟨c, hcm, r, q, hskip, htry, hsel⟩ := hshape.1 hbt
            have hinv' := hspec.1 hbt
            simp only at hsel hinv'
            rw [hsel] at hinv' ⊢
            obtain ⟨hcn', helig, _⟩ := candidates_mem ok hc hcm
            obtain ⟨hqp, hqv⟩ := tryCandidate_valid helig htry
            obtain ⟨hnr, hneq, hin, _⟩ := skipBacktrack_false hskip
            have hqn : q.1.package.name = n := by rw [hqp]; exact hcn'.trans hprim
            have hos := outer_select (fams := fams) (n := n) t (s := s.reject env cur.package) (q := q)
              (by rw [reject_resolved]; exact h.nodup) (by rw [hqp]; exact hnr)
            cases hv : cur.package.version with
            | some v =>
              left
              by_cases hr : s.isRejected env cur.package = true
              · have hcr := isRejected_reject_self so s cur.package hv
                have := hos.2 cur (by rw [reject_resolved]; exact hcur) (hcn.trans hqn.symm) hcr
                exact lt_of_lt_of_le this hout.1
              · exact lt_of_le_of_lt hos.1 (hout.2 v hv (by simpa using hr))
            | none =>
              right
              refine ⟨le_trans hos.1 hout.1, ?_⟩
              have hi0 : inner (s.reject env cur.package) fams = inner s fams := by
                rw [hrj]; exact inner_congr fams rfl rfl rfl
              have hneed' : NeededIn (s.reject env cur.package) n := by
                have := hinv.needed cur (by rw [reject_resolved]; exact hcur)
                exact hcn ▸ this
              have ho' : (s.reject env cur.package).original = reqs := by rw [hrj]; exact ho
              rw [← hi0]
              refine select_progress lay hinv ho' t hqv hqn hneed' hinv' ?_
              have hact : (s.reject env cur.package).active = s.active := by rw [hrj]
              have hsv := (select_value lay sp hinv ho' t hqv hqn hneed' hinv' (by
                intro r hr
                rw [hact, hg] at hr
                rw [hqp]
                exact hin r hr)).2 (by
                rw [hqp]
                intro hvn
                rw [hv, hvn] at hneq
                cases hneq)
              rw [hsv]
              unfold value
              rw [if_pos ⟨cur, by rw [reject_resolved]; exact hcur, hcn⟩]
              split
              · omega
              · rw [if_pos ⟨cur, by rw [reject_resolved]; exact hcur, hcn, hv⟩]
                omega
          · intro hbf
            have := hshape.2 hbf
            simp only at this
            rw [this]
            exact ⟨hout.1, rj, hrj⟩

theorem backtrackLoop_progress (ok : EnvOk env) (so : SetOk env) (sp : SpellingsAgree env reqs)
    (lay : Layered env reqs fams) (t : Nat) (ns : List Str) {s s' : RState} (h : Inv env s) (ho : s.original = reqs)
    {b : Bool} (hb : backtrackLoop env t ns s = some (s', b)) :
    (b = true → outer env fams s' < outer env fams s ∨
      (outer env fams s' ≤ outer env fams s ∧ inner s' fams < inner s fams)) ∧
    (b = false → outer env fams s' ≤ outer env fams s ∧ ∃ rj, s' = { s with rejected := rj }) := by
  induction ns generalizing s with
  | nil =>
    simp [backtrackLoop] at hb
    obtain ⟨rfl, rfl⟩ := hb
    exact ⟨(fun h => by cases h), fun _ => ⟨le_rfl, s.rejected, rfl⟩⟩
  | cons n ns ih =>
    unfold backtrackLoop at hb
    cases hp : backtrackPackage env t s n with
    | none => rw [hp] at hb; cases hb
    | some x =>
      obtain ⟨s1, b1⟩ := x
      have h1 := backtrackPackage_progress ok so sp lay h ho t hp
      rw [hp] at hb
      cases b1 with
      | true =>
        simp at hb
        obtain ⟨rfl, rfl⟩ := hb
        exact ⟨fun _ => h1.1 rfl, (fun h => by cases h)⟩
      | false =>
        simp only at hb
        obtain ⟨hle, rj, hrj⟩ := h1.2 rfl
        have hinv : Inv env s1 := by rw [hrj]; exact reject_inv h rj
        have hi0 : inner s1 fams = inner s fams := by rw [hrj]; exact inner_congr fams rfl rfl rfl
        have := ih hinv (by rw [hrj]; exact ho) hb
        constructor
        · intro hbt
          rcases this.1 hbt with h2 | ⟨h2, h3⟩
          · exact .inl (lt_of_lt_of_le h2 hle)
          · exact .inr ⟨le_trans h2 hle, hi0 ▸ h3⟩
        · intro hbf
          obtain ⟨h2, rj', h3⟩ := this.2 hbf
          refine ⟨le_trans h2 hle, rj', ?_⟩
          rw [h3, hrj]

theorem process_progress (ok : EnvOk env) (so : SetOk env) (sp : SpellingsAgree env reqs) (lay : Layered env reqs fams)
    (t : Nat) {s s' : RState} {r : Requirement} (h : Inv env { s with queue := r :: s.queue })
    (ha : s.isActive r = true) (ho : s.original = reqs) (hqo : QueueOk { s with queue := r :: s.queue })
    (hp : process env t s r = some s') :
    Progress env fams s' { s with queue := r :: s.queue } ∧ QueueOk s' := by
  have hinv : Inv env s' := process_inv ok t h hp
  have hi0 : inner { s with queue := r :: s.queue } fams = inner s fams := inner_congr fams rfl rfl rfl
  have ho0 : outer env fams { s with queue := r :: s.queue } = outer env fams s := rfl
  -- nothing but the queue, the failures, the rejections and the log changes
  have quiet : ∀ s'', outer env fams s'' ≤ outer env fams s → s''.original = s.original →
      s''.resolved = s.resolved → s''.pkgReqs = s.pkgReqs → s''.queue = s.queue →
      Progress env fams s'' { s with queue := r :: s.queue } ∧ QueueOk s'' := by
    intro s'' h1 h2 h3 h4 h5
    refine ⟨?_, fun x hx => by
      have := hqo x (List.mem_cons_of_mem _ (h5 ▸ hx))
      unfold Tracked at this ⊢
      rw [h2, h3, h4]
      exact this⟩
    refine .inr ⟨h1, .inr ⟨?_, ?_⟩⟩
    · rw [hi0]; exact inner_congr fams h2 h3 h4
    · rw [h5]; simp
  unfold process at hp
  by_cases hsat : (s.findSatisfying r).isSome = true
  · rw [if_pos hsat] at hp
    simp at hp; subst hp
    exact quiet s le_rfl rfl rfl rfl rfl
  · rw [if_neg hsat] at hp
    have hns : ¬ s.Sat r := fun hh => hsat ((findSatisfying_iff s r).mpr hh)
    by_cases hweak : (r.weak && !s.hasFamily r.name) = true
    · rw [if_pos hweak] at hp
      simp at hp; subst hp
      exact quiet s le_rfl rfl rfl rfl rfl
    · rw [if_neg hweak] at hp
      cases hc : candidates env r with
      | none => rw [hc] at hp; cases hp
      | some cs =>
        rw [hc] at hp
        simp only at hp
        by_cases hemp : cs.isEmpty = true
        · rw [if_pos hemp] at hp
          simp at hp; subst hp
          exact quiet _ le_rfl rfl rfl rfl rfl
        · rw [if_neg hemp] at hp
          -- the family is needed
          obtain ⟨r', ht', he'⟩ := tracked_of_active h (r := r) ha
          have hn' : r'.name = r.name := Requirement.eqv_name he'
          have hneed : NeededIn { s with queue := r :: s.queue } r.name := by
            cases hw : r.weak with
            | false => exact hn' ▸ tracked_needed h ht' ((eqv_weak he').trans hw)
            | true =>
              rw [hw] at hweak
              simp only [Bool.true_and, Bool.not_eq_true', Bool.not_eq_false] at hweak
              unfold hasFamily at hweak
              obtain ⟨i, hi, hin⟩ := List.any_eq_true.mp hweak
              have hin : i.package.name = r.name := by simpa using hin
              exact hin ▸ h.needed i hi
          have hunmet : 2 ≤ value { s with queue := r :: s.queue } r.name := by
            refine value_unmet ⟨r', ht', hn', ?_⟩
            intro i hi hin hr
            obtain ⟨_, _, _, _, hv⟩ := h.valid i hi
            exact hns ⟨i, hi, hin, sp r' r (tracked_stated h ho ht')
              (tracked_stated h ho (hqo r (List.mem_cons_self ..))) he' _ hv.listed hr⟩
          have hshape := tryCandidates_shape env t r cs s none
            (fun c => c ∈ cs) (fun c hcm => hcm) (fun c hx => by cases hx)
          cases hres : tryCandidates env t r cs s none with
          | mk s1 rest =>
            obtain ⟨found, best⟩ := rest
            rw [hres] at hp hshape
            simp only at hp hshape
            cases found with
            | true =>
              simp only [if_true, Option.some.injEq] at hp
              subst hp
              obtain ⟨c, cf, q, hcm, hrj, hcc, htry, hsel⟩ := hshape.1 rfl
              obtain ⟨hcn, helig, _⟩ := candidates_mem ok hc hcm
              obtain ⟨hqp, hqv⟩ := tryCandidate_valid helig htry
              have hqn : q.1.package.name = r.name := by rw [hqp]; exact hcn
              have h2 : Inv env { s with queue := r :: s.queue, conflicts := cf } :=
                inv_congr h rfl rfl rfl rfl rfl rfl rfl rfl fun _ h => h
              have hsame : s1 = select env t { s with queue := r :: s.queue, conflicts := cf } r.name q := by
                rw [hsel, hqn]; rfl
              rw [hsame] at hinv ⊢
              have hneed2 : NeededIn { s with queue := r :: s.queue, conflicts := cf } r.name := by
                have := needed_transfer (s := { s with queue := r :: s.queue })
                  (s' := { s with queue := r :: s.queue, conflicts := cf }) rfl rfl hneed
                exact this
              refine ⟨?_, select_queueOk env t _ _ q⟩
              refine .inr ⟨(outer_select (fams := fams) t
                (s := { s with queue := r :: s.queue, conflicts := cf }) h.nodup (by rw [hqp]; exact hrj)).1, .inl ?_⟩
              have hsv := (select_value lay sp h2 ho t hqv hqn hneed2 hinv (by
                intro r'' hr''
                rw [hqp]
                exact (checkConflicts_none hcc).2 r'' (hcn.symm ▸ hr''))).1
              have hlt := select_progress lay h2 ho t hqv hqn hneed2 hinv (by
                rw [value_congr (s := { s with queue := r :: s.queue })
                  (s' := { s with queue := r :: s.queue, conflicts := cf }) rfl rfl rfl]
                omega)
              rw [inner_congr fams (s := { s with queue := r :: s.queue })
                (s' := { s with queue := r :: s.queue, conflicts := cf }) rfl rfl rfl] at hlt
              exact hlt
            | false =>
              simp only [Bool.false_eq_true, if_false] at hp
              obtain ⟨⟨cf, hcf⟩, hbest⟩ := hshape.2 rfl
              have h2 : Inv env { s1 with queue := r :: s1.queue } := by
                rw [hcf]; exact inv_congr h rfl rfl rfl rfl rfl rfl rfl rfl fun _ h => h
              unfold afterCandidates at hp
              cases hbe : bestEffort env s1 (s.hasFamily r.name) best r with
              | some q =>
                rw [hbe] at hp
                simp only [Option.some.injEq] at hp
                subst hp
                obtain ⟨_, hnf, c, hbc, htry⟩ := bestEffort_some hbe
                obtain ⟨hcm, hrj⟩ := hbest c hbc
                obtain ⟨hcn, helig, _⟩ := candidates_mem ok hc hcm
                obtain ⟨hqp, hqv⟩ := tryCandidate_valid helig htry
                have hqn : q.1.package.name = r.name := by rw [hqp]; exact hcn
                rw [hqn] at hinv ⊢
                have hsame : select env t s1 r.name q = select env t { s1 with queue := r :: s1.queue } r.name q := rfl
                rw [hsame] at hinv ⊢
                have hneed2 : NeededIn { s1 with queue := r :: s1.queue } r.name := by
                  rw [hcf]
                  refine needed_transfer (s := { s with queue := r :: s.queue }) ?_ ?_ hneed <;> rfl
                have ho2 : ({ s1 with queue := r :: s1.queue } : RState).original = reqs := by rw [hcf]; exact ho
                have hval : value { s1 with queue := r :: s1.queue } r.name = 3 := by
                  refine value_absent ?_
                  intro i hi hin
                  rw [hcf] at hi
                  unfold hasFamily at hnf
                  rw [List.any_eq_false] at hnf
                  exact hnf i hi (by simpa using hin)
                have hlayers := select_layers lay h2 ho2 t hqv hqn hneed2 hinv
                have hlt := select_progress lay h2 ho2 t hqv hqn hneed2 hinv (by
                  have := value_present hlayers.2.2.2 hqn
                  omega)
                refine ⟨?_, select_queueOk env t _ _ q⟩
                refine .inr ⟨?_, .inl ?_⟩
                · have := (outer_select (fams := fams) (n := r.name) t (s := { s1 with queue := r :: s1.queue }) (q := q)
                    (by rw [hcf]; exact h.nodup) (by rw [hqp, hcf]; exact hrj)).1
                  refine le_trans this ?_
                  rw [hcf]
                  exact le_of_eq rfl
                · refine lt_of_lt_of_le hlt ?_
                  rw [hcf]
                  exact le_of_eq (inner_congr fams rfl rfl rfl)
              | none =>
                rw [hbe] at hp
                simp only at hp
                by_cases hst : env.strict = true
                · rw [if_pos hst] at hp
                  cases hbs : backtrackSource env t s1 r with
                  | none => rw [hbs] at hp; cases hp
                  | some x =>
                    obtain ⟨s2, b⟩ := x
                    rw [hbs] at hp
                    unfold backtrackSource at hbs
                    rw [hc] at hbs
                    simp only at hbs
                    -- the queue plays no part in backtracking
                    obtain ⟨s2', hs2', hrel⟩ := backtrackLoop_queue env t (sources s1 cs r) s1 (r :: s1.queue) hbs
                    have hprog := backtrackLoop_progress ok so sp lay t _ h2 (by rw [hcf]; exact ho) hs2'
                    have e1 : outer env fams { s1 with queue := r :: s1.queue } =
                        outer env fams { s with queue := r :: s.queue } := by rw [hcf]; rfl
                    have e2 : inner { s1 with queue := r :: s1.queue } fams =
                        inner { s with queue := r :: s.queue } fams := by
                      rw [hcf]; exact inner_congr fams rfl rfl rfl
                    rw [e1, e2] at hprog
                    cases b with
                    | true =>
                      simp only [Option.some.injEq] at hp
                      subst hp
                      have := hrel.1 rfl
                      subst this
                      refine ⟨?_, backtrackLoop_queueOk env t _ hs2'⟩
                      rcases hprog.1 rfl with h3 | ⟨h3, h4⟩
                      · exact .inl h3
                      · exact .inr ⟨h3, .inl h4⟩
                    | false =>
                      simp only [Option.some.injEq] at hp
                      subst hp
                      obtain ⟨rj, hx⟩ := hrel.2 rfl
                      obtain ⟨h3, rj', h4⟩ := hprog.2 rfl
                      rw [hx.2] at h3
                      refine quiet _ ?_ ?_ ?_ ?_ ?_
                      · refine le_trans (le_of_eq ?_) h3
                        rw [hx.1]; rfl
                      · rw [hx.1, hcf]; rfl
                      · rw [hx.1, hcf]; rfl
                      · rw [hx.1, hcf]; rfl
                      · rw [hx.1, hcf]; rfl
                · rw [if_neg hst] at hp
                  simp only [Option.some.injEq] at hp
                  subst hp
                  refine quiet _ ?_ ?_ ?_ ?_ ?_ <;> rw [hcf]
                  · exact le_of_eq rfl
                  · rfl
                  · rfl
                  · rfl
                  · rfl

theorem run_terminates (ok : EnvOk env) (so : SetOk env) (sp : SpellingsAgree env reqs) (lay : Layered env reqs fams)
    (s : RState) (h : Inv env s) (ho : s.original = reqs) (hqo : QueueOk s) (t : Nat) : ∃ fuel, (run env fuel t s).isSome = true := by
  induction s using (progress_wf env fams).induction generalizing t with
  | _ s ih =>
    cases hg : s.getNext with
    | none => exact ⟨1, by rw [run, hg]; rfl⟩
    | some x =>
      obtain ⟨r, s1⟩ := x
      cases hp : process env t s1 r with
      | none => exact ⟨1, by rw [run, hg]; simp only; rw [hp]; rfl⟩
      | some s2 =>
        obtain ⟨hi1, hact⟩ := getNext_inv h hg
        have hs1 : ∃ k, s.queue = k ++ r :: s1.queue ∧ s1 = { s with queue := s1.queue } := by
          unfold getNext at hg
          split at hg
          · cases hg
          · rename_i r0 q0 hd
            simp at hg
            obtain ⟨rfl, rfl⟩ := hg
            exact ⟨s.queue.takeWhile fun r => !s.isActive r, by
              conv_lhs => rw [← List.takeWhile_append_dropWhile (p := fun r => !s.isActive r) (l := s.queue), hd], rfl⟩
        obtain ⟨k, hk, hs1⟩ := hs1
        have hact1 : s1.isActive r = true := by rw [hs1]; exact hact
        have ho1 : s1.original = reqs := by rw [hs1]; exact ho
        have hqo1 : QueueOk { s1 with queue := r :: s1.queue } := by
          intro x hx
          have hx : x ∈ r :: s1.queue := hx
          have := hqo x (by rw [hk]; exact List.mem_append_right _ hx)
          rw [hs1]
          exact this
        obtain ⟨hprog, hqo2⟩ := process_progress ok so sp lay t hi1 hact1 ho1 hqo1 hp
        have hp2 : Progress env fams s2 s := by
          have e1 : outer env fams { s1 with queue := r :: s1.queue } = outer env fams s := by rw [hs1]; rfl
          have e2 : inner { s1 with queue := r :: s1.queue } fams = inner s fams := by
            rw [hs1]; exact inner_congr fams rfl rfl rfl
          unfold Progress at hprog ⊢
          rw [e1, e2] at hprog
          rcases hprog with h3 | ⟨h3, h4 | ⟨h4, h5⟩⟩
          · exact .inl h3
          · exact .inr ⟨h3, .inl h4⟩
          · refine .inr ⟨h3, .inr ⟨h4, lt_of_lt_of_le h5 ?_⟩⟩
            rw [hk]; simp
        obtain ⟨fuel, hf⟩ := ih s2 hp2 (process_inv ok t hi1 hp) ((process_original hp).trans ho1) hqo2 (t + 1)
        exact ⟨fuel + 1, by rw [run, hg]; simp only; rw [hp]; exact hf⟩

end Steps

end Rez
