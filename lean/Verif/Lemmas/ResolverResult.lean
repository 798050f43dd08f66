import Verif.Lemmas.ResolverCycle
/-!
# From the invariant of the resolver's loop to its result
-/
namespace Rez
open Rez.Spec Rez.RState Rez.Resolver Relation

/-! ## The request is never changed -/

theorem select_original (env : Env) (t : Nat) (s : RState) (n : Str) (q : Info × List Requirement × List Requirement) :
    (select env t s n q).original = s.original := rfl

theorem reject_original (env : Env) (s : RState) (p : Package) : (s.reject env p).original = s.original := by
  unfold reject; split <;> rfl

theorem tryCandidates_original (env : Env) (t : Nat) (r : Requirement) (cs : List Package) (s : RState)
    (best : Option Package) : (tryCandidates env t r cs s best).1.original = s.original := by
  induction cs generalizing s best with
  | nil => rfl
  | cons c cs ih =>
    unfold tryCandidates
    split
    · exact ih _ _
    · simp only
      split
      · exact ih _ _
      · split
        · rfl
        · exact ih _ _

theorem backtrackCandidates_original (env : Env) (t : Nat) (n : Str) (cur : Info) (reqs : List Requirement)
    (prim : Requirement) (cs : List Package) (s : RState) :
    (backtrackCandidates env t n cur reqs prim cs s).1.original = s.original := by
  induction cs generalizing s with
  | nil => rfl
  | cons c cs ih =>
    unfold backtrackCandidates
    split
    · exact ih _
    · split
      · rfl
      · exact ih _

theorem backtrackPackage_original {env : Env} {t : Nat} {s s' : RState} {n : Str} {b : Bool}
    (h : backtrackPackage env t s n = some (s', b)) : s'.original = s.original := by
  unfold backtrackPackage at h
  split at h
  · simp at h; rw [h.1]
  · split at h
    · simp at h; rw [h.1]
    · simp at h; rw [h.1]
    · rename_i _ cur _ _ prim rest _
      cases hc : candidates env prim with
      | none => rw [hc] at h; cases h
      | some cs =>
        rw [hc] at h
        simp only [Option.map_some, Option.some.injEq] at h
        have := backtrackCandidates_original env t n cur (prim :: rest) prim cs (s.reject env cur.package)
        rw [h] at this
        rw [this, reject_original]

theorem backtrackLoop_original {env : Env} {t : Nat} (ns : List Str) {s s' : RState} {b : Bool}
    (h : backtrackLoop env t ns s = some (s', b)) : s'.original = s.original := by
  induction ns generalizing s with
  | nil => simp [backtrackLoop] at h; rw [h.1]
  | cons n ns ih =>
    unfold backtrackLoop at h
    split at h
    · cases h
    · rename_i s1 hb
      simp at h
      rw [← h.1]; exact backtrackPackage_original hb
    · rename_i s1 hb
      rw [ih h]; exact backtrackPackage_original hb

theorem process_original {env : Env} {t : Nat} {s s' : RState} {r : Requirement}
    (h : process env t s r = some s') : s'.original = s.original := by
  unfold process at h
  split at h
  · simp at h; rw [h]
  · split at h
    · simp at h; rw [h]
    · split at h
      · cases h
      · split at h
        · simp at h; rw [← h]; rfl
        · rename_i cs _ _
          simp only at h
          have h0 := tryCandidates_original env t r cs s none
          split at h
          · simp at h; rw [← h]; exact h0
          · rw [← h0]
            unfold afterCandidates at h
            split at h
            · simp at h; rw [← h]; rfl
            · split at h
              · split at h
                · cases h
                · rename_i hb
                  simp at h; rw [← h]
                  unfold backtrackSource at hb
                  split at hb
                  · cases hb
                  · exact backtrackLoop_original _ hb
                · rename_i hb
                  simp at h; rw [← h]
                  unfold backtrackSource at hb
                  split at hb
                  · cases hb
                  · exact (backtrackLoop_original _ hb :)
              · simp at h; rw [← h]; rfl

theorem getNext_original {s s' : RState} {r : Requirement} (h : s.getNext = some (r, s')) :
    s'.original = s.original := by
  unfold getNext at h
  split at h
  · cases h
  · simp at h; rw [← h.2]

theorem run_original {env : Env} (fuel t : Nat) {s s' : RState} (h : run env fuel t s = some (some s')) :
    s'.original = s.original := by
  induction fuel generalizing s t with
  | zero => cases h
  | succ fuel ih =>
    unfold run at h
    split at h
    · simp at h; rw [h]
    · rename_i r s1 hg
      split at h
      · cases h
      · rename_i s2 hp
        rw [ih _ h, process_original hp, getNext_original hg]

/-! ## The result of a resolve -/

/-- what a finished resolve leaves -/
theorem resolve_state {env : Env} (ok : EnvOk env) {fuel : Nat} {reqs : List Requirement} {res : Result}
    (h : resolve env fuel reqs = some (some res)) :
    ∃ s, run env fuel 1 (RState.new env reqs) = some (some s) ∧ Inv env s ∧ s.getNext = none ∧ s.original = reqs ∧
      detectCycle env s.depGraph = none ∧
      (env.strict = true → finalFailed s = []) ∧ res.resolved = s.resolved ∧ res.failed = finalFailed s := by
  unfold resolve at h
  cases hr : run env fuel 1 (RState.new env reqs) with
  | none => rw [hr] at h; cases h
  | some o =>
    cases o with
    | none => rw [hr] at h; cases h
    | some s =>
      rw [hr] at h
      simp only [Option.map_some, Option.bind_some, Option.some.injEq] at h
      have hi := run_inv ok fuel 1 (new_inv ok reqs) hr
      unfold finish at h
      split at h
      · cases h
      · rename_i hcy
        split at h
        · cases h
        · rename_i hst
          simp at h
          refine ⟨s, rfl, hi.1, hi.2, run_original fuel 1 hr, hcy, ?_, ?_, ?_⟩
          · intro hs
            rw [hs] at hst
            simpa using hst
          · rw [← h]
          · rw [← h]

/-! ## Requirement texts -/

theorem foldAddNew_mem (vs l : List Str) (x : Str) :
    x ∈ vs.foldl (fun l v => if v ∈ l then l else l ++ [v]) l ↔ x ∈ l ∨ x ∈ vs := by
  induction vs generalizing l with
  | nil => simp
  | cons v vs ih =>
    rw [List.foldl_cons, ih]
    by_cases h : v ∈ l
    · rw [if_pos h]
      constructor
      · rintro (h1 | h1)
        · exact .inl h1
        · exact .inr (List.mem_cons_of_mem _ h1)
      · rintro (h1 | h1)
        · exact .inl h1
        · rcases List.mem_cons.mp h1 with rfl | h1
          · exact .inl h
          · exact .inr h1
    · rw [if_neg h]
      simp [or_assoc]

/-- the texts the resolver collects are those of the package and its variant -/
theorem effectiveRequires_mem (i : Info) (raw : Str) :
    raw ∈ effectiveRequires i.package i.variantIndex ↔ Demands i raw := by
  unfold effectiveRequires Demands
  cases hv : i.variantIndex with
  | none => simp
  | some k =>
    simp only
    rw [foldAddNew_mem]
    refine or_congr_right ?_
    rw [List.getD_eq_getElem?_getD]
    cases hg : i.package.variants[k]? with
    | none => simp [hg]
    | some vs => simp [hg]

theorem parseVariantReq_false (raw : Str) (r : Requirement) :
    parseVariantReq raw = some (false, r) ↔ ¬ IsConflictText raw ∧ Requirement.parse raw = some r := by
  unfold parseVariantReq IsConflictText
  split
  · simp
  · rename_i hne
    have : ¬ raw.head? = some '!' := by
      intro h
      cases raw with
      | nil => cases h
      | cons c l => simp at h; exact hne l (by rw [h])
    simp [this]

theorem parseVariantReq_true (raw : Str) (r : Requirement) :
    parseVariantReq raw = some (true, r) ↔ IsConflictText raw ∧ Requirement.parse raw.tail = some r := by
  unfold parseVariantReq IsConflictText
  split
  · simp
  · rename_i hne
    have : ¬ raw.head? = some '!' := by
      intro h
      cases raw with
      | nil => cases h
      | cons c l => simp at h; exact hne l (by rw [h])
    simp [this]

theorem splitRequires_mem {l : List Str} {deps confl : List Requirement}
    (h : splitRequires l = some (deps, confl)) :
    (∀ r, r ∈ deps ↔ ∃ raw ∈ l, parseVariantReq raw = some (false, r)) ∧
    (∀ r, r ∈ confl ↔ ∃ raw ∈ l, parseVariantReq raw = some (true, r)) ∧
    (∀ raw ∈ l, (parseVariantReq raw).isSome = true) := by
  induction l generalizing deps confl with
  | nil =>
    simp [splitRequires] at h
    obtain ⟨rfl, rfl⟩ := h
    simp
  | cons x l ih =>
    unfold splitRequires at h
    split at h
    · cases h
    · rename_i c r hp
      cases hs : splitRequires l with
      | none => rw [hs] at h; cases h
      | some q =>
        obtain ⟨d, e⟩ := q
        rw [hs] at h
        obtain ⟨h1, h2, h3⟩ := ih hs
        cases c with
        | false =>
          simp at h
          obtain ⟨rfl, rfl⟩ := h
          refine ⟨?_, ?_, ?_⟩
          · intro r'
            rw [List.mem_cons, h1]
            simp [hp, eq_comm]
          · intro r'
            rw [h2]
            simp [hp]
          · intro raw hraw
            rcases List.mem_cons.mp hraw with rfl | hraw
            · simp [hp]
            · exact h3 raw hraw
        | true =>
          simp at h
          obtain ⟨rfl, rfl⟩ := h
          refine ⟨?_, ?_, ?_⟩
          · intro r'
            rw [h1]
            simp [hp]
          · intro r'
            rw [List.mem_cons, h2]
            simp [hp, eq_comm]
          · intro raw hraw
            rcases List.mem_cons.mp hraw with rfl | hraw
            · simp [hp]
            · exact h3 raw hraw

/-- the dependencies recorded for a resolved package are its requirements -/
theorem deps_iff {env : Env} {i : Info} {deps confl : List Requirement} (h : ValidInfo env i deps confl)
    (r : Requirement) :
    r ∈ deps ↔ ∃ raw, Demands i raw ∧ ¬ IsConflictText raw ∧ Requirement.parse raw = some r := by
  rw [(splitRequires_mem h.requires).1]
  constructor
  · rintro ⟨raw, hm, hp⟩
    exact ⟨raw, (effectiveRequires_mem i raw).mp hm, (parseVariantReq_false raw r).mp hp⟩
  · rintro ⟨raw, hm, hp⟩
    exact ⟨raw, (effectiveRequires_mem i raw).mpr hm, (parseVariantReq_false raw r).mpr hp⟩

theorem demand_parses {env : Env} {i : Info} {deps confl : List Requirement} (h : ValidInfo env i deps confl)
    {raw : Str} (hd : Demands i raw) (hc : ¬ IsConflictText raw) : ∃ r ∈ deps, Requirement.parse raw = some r := by
  have := (splitRequires_mem h.requires).2.2 raw ((effectiveRequires_mem i raw).mpr hd)
  obtain ⟨⟨c, r⟩, hp⟩ := Option.isSome_iff_exists.mp this
  cases c with
  | true => exact absurd ((parseVariantReq_true raw r).mp hp).1 hc
  | false =>
    have := (parseVariantReq_false raw r).mp hp
    exact ⟨r, (deps_iff h r).mpr ⟨raw, hd, hc, this.2⟩, this.2⟩

/-! ## In terms of the specification -/

theorem mem_nodup_name {l : List Info} (hn : (l.map fun i => i.package.name).Nodup) {i j : Info} (hi : i ∈ l)
    (hj : j ∈ l) (he : i.package.name = j.package.name) : i = j := by
  induction l with
  | nil => cases hi
  | cons a l ih =>
    simp only [List.map_cons, List.nodup_cons] at hn
    rcases List.mem_cons.mp hi with h1 | hi' <;> rcases List.mem_cons.mp hj with h2 | hj'
    · rw [h1, h2]
    · rw [h1] at he
      exact absurd (List.mem_map.mpr ⟨j, hj', he.symm⟩) hn.1
    · rw [h2] at he
      exact absurd (List.mem_map.mpr ⟨i, hi', he⟩) hn.1
    · exact ih hn.2 hi' hj'

theorem holds_of_sat {env : Env} {s : RState} (h : Inv env s) {r : Requirement} (hs : s.Sat r) :
    Holds (packagesOf s.resolved) r := by
  obtain ⟨i, hi, hn, hr⟩ := hs
  unfold Holds packagesOf
  split
  · intro p hp hpn
    obtain ⟨j, hj, rfl⟩ := List.mem_map.mp hp
    rw [mem_nodup_name h.nodup hj hi (hpn.trans hn.symm)]
    exact hr
  · exact ⟨i.package, List.mem_map_of_mem hi, hn, hr⟩

theorem sat_of_holds {s : RState} {r : Requirement} (hh : Holds (packagesOf s.resolved) r)
    (hw : r.weak = false ∨ ∃ i ∈ s.resolved, i.package.name = r.name) : s.Sat r := by
  unfold Holds packagesOf at hh
  split at hh
  · rename_i hwk
    rcases hw with hw | ⟨i, hi, hn⟩
    · rw [hw] at hwk; cases hwk
    · exact ⟨i, hi, hn, hh _ (List.mem_map_of_mem hi) hn⟩
  · obtain ⟨p, hp, hn, hr⟩ := hh
    obtain ⟨i, hi, rfl⟩ := List.mem_map.mp hp
    exact ⟨i, hi, hn, hr⟩

theorem tracked_request {s : RState} {r : Requirement} (hr : r ∈ s.original) (hc : r.conflict = false) :
    s.Tracked r := .inl ⟨hr, hc⟩

theorem tracked_demand {env : Env} {s : RState} (h : Inv env s) {i : Info} (hi : i ∈ s.resolved) {raw : Str}
    (hd : Demands i raw) (hc : ¬ IsConflictText raw) :
    ∃ r, Requirement.parse raw = some r ∧ s.Tracked r := by
  obtain ⟨deps, confl, h1, _, hv⟩ := h.valid i hi
  obtain ⟨r, hr, hp⟩ := demand_parses hv hd hc
  exact ⟨r, hp, .inr ⟨i, hi, deps, h1, hr⟩⟩

theorem tracked_iff {env : Env} {s : RState} (h : Inv env s) (r : Requirement) :
    s.Tracked r ↔ (r ∈ s.original ∧ r.conflict = false) ∨
      ∃ i ∈ s.resolved, ∃ raw, Demands i raw ∧ ¬ IsConflictText raw ∧ Requirement.parse raw = some r := by
  unfold Tracked
  refine or_congr_right ?_
  constructor
  · rintro ⟨i, hi, deps, hg, hr⟩
    obtain ⟨deps', confl, h1, _, hv⟩ := h.valid i hi
    rw [hg] at h1
    simp at h1
    subst h1
    exact ⟨i, hi, (deps_iff hv r).mp hr⟩
  · rintro ⟨i, hi, hr⟩
    obtain ⟨deps, confl, h1, _, hv⟩ := h.valid i hi
    exact ⟨i, hi, deps, h1, (deps_iff hv r).mpr hr⟩

theorem needed_spec {env : Env} {s : RState} (h : Inv env s) {n : Str} (hn : NeededIn s n) :
    Needed s.original s.resolved n := by
  induction hn with
  | request hr hw hc => exact .request hr hw hc
  | @package n deps r hg _ hr hw ih =>
    obtain ⟨i, hi, rfl⟩ := h.reqOwner n ((mget_isSome_iff _ _).mp ⟨deps, hg⟩)
    obtain ⟨deps', confl, h1, _, hv⟩ := h.valid i hi
    rw [hg] at h1
    simp at h1
    subst h1
    obtain ⟨raw, hd, hc, hp⟩ := (deps_iff hv r).mp hr
    exact .package hi ih hd hc hp hw

theorem edge_iff {env : Env} {s : RState} (h : Inv env s) (a b : Str) :
    Edge s.depGraph a b ↔ Requires s.resolved a b := by
  unfold Edge Requires
  rw [h.graph]
  constructor
  · rintro ⟨deps, hg, r, hr, rfl⟩
    obtain ⟨i, hi, rfl⟩ := h.reqOwner a ((mget_isSome_iff _ _).mp ⟨deps, hg⟩)
    obtain ⟨deps', confl, h1, _, hv⟩ := h.valid i hi
    rw [hg] at h1
    simp at h1
    subst h1
    obtain ⟨raw, hd, hc, hp⟩ := (deps_iff hv r).mp hr
    exact ⟨i, hi, rfl, raw, r, hd, hc, hp, rfl⟩
  · rintro ⟨i, hi, rfl, raw, r, hd, hc, hp, rfl⟩
    obtain ⟨deps, confl, h1, _, hv⟩ := h.valid i hi
    exact ⟨deps, h1, r, (deps_iff hv r).mpr ⟨raw, hd, hc, hp⟩, rfl⟩

theorem finalFailed_mem {s : RState} {r : Requirement} :
    r ∈ finalFailed s ↔ r ∈ s.failed ∧ s.isActive r = true ∧ ¬ s.Sat r := by
  unfold finalFailed
  rw [List.mem_filter, ← findSatisfying_iff]
  simp [Option.isSome_iff_ne_none]

/-- a requirement still to be met is either met or reported -/
theorem tracked_holds_or_failed {env : Env} {s : RState} (h : Inv env s) (hg : s.getNext = none) {r : Requirement}
    (hr : s.Tracked r) : Holds (packagesOf s.resolved) r ∨ r ∈ finalFailed s := by
  by_cases hs : s.Sat r
  · exact .inl (holds_of_sat h hs)
  · rcases final_done h hg r hr with h1 | ⟨hw, hn⟩ | hf
    · exact absurd h1 hs
    · refine .inl ?_
      unfold Holds packagesOf
      rw [if_pos hw]
      intro p hp he
      obtain ⟨i, hi, rfl⟩ := List.mem_map.mp hp
      exact absurd he (hn i hi)
    · exact .inr (finalFailed_mem.mpr ⟨hf, h.active r hr, hs⟩)

/-! ## Candidates -/

theorem acceptable_iff (env : Env) (r : Requirement) (p : Package) :
    acceptable env r p = true ↔ ReleaseOk env p ∧ InRange r p := by
  unfold acceptable ReleaseOk InRange
  cases p.version with
  | none => simp
  | some v =>
    simp only [Option.some.injEq, forall_eq']
    cases env.allowPrerelease <;> cases v.isPrerelease <;> simp

theorem cmpOldest_swap (x y : Package) : cmpOldest y x = (cmpOldest x y).swap := by
  unfold cmpOldest
  cases x.version <;> cases y.version <;> simp
  rw [Version.cmp_swap]

theorem cmpLatest_eq (x y : Package) : cmpLatest x y = match x.version, y.version with
    | none, none => .eq
    | none, some _ => .lt
    | some _, none => .gt
    | some u, some v => v.cmp u := by
  unfold cmpLatest
  cases x.version <;> cases y.version <;> rfl

theorem cmpLatest_swap (x y : Package) : cmpLatest y x = (cmpLatest x y).swap := by
  rw [cmpLatest_eq, cmpLatest_eq]
  cases x.version <;> cases y.version <;> simp
  rw [Version.cmp_swap]

theorem cmpOldest_trans {ps : List Package} (h : Comparable ps) :
    ∀ x ∈ ps, ∀ y ∈ ps, ∀ z ∈ ps, cmpOldest x y ≠ .gt → cmpOldest y z ≠ .gt → cmpOldest x z ≠ .gt := by
  intro x hx y hy z hz
  have := h x hx y hy z hz
  unfold cmpOldest
  cases hu : x.version <;> cases hv : y.version <;> cases hw : z.version <;> simp
  exact this _ _ _ hu hv hw

theorem cmpLatest_trans {ps : List Package} (h : Comparable ps) :
    ∀ x ∈ ps, ∀ y ∈ ps, ∀ z ∈ ps, cmpLatest x y ≠ .gt → cmpLatest y z ≠ .gt → cmpLatest x z ≠ .gt := by
  intro x hx y hy z hz
  have := h z hz y hy x hx
  rw [cmpLatest_eq, cmpLatest_eq, cmpLatest_eq]
  cases hu : x.version <;> cases hv : y.version <;> cases hw : z.version <;> simp
  exact fun h1 h2 => this _ _ _ hw hv hu h2 h1

/-- three elements related in a circle cannot be arranged so that no earlier one is related to a later one -/
theorem no_cycle_sorted {α : Type} {a b c : α} {l : List α} (hp : l.Perm [a, b, c]) (R : α → α → Prop)
    (h1 : R a b) (h2 : R b c) (h3 : R c a) (hs : l.Pairwise fun x y => ¬ R x y) : False := by
  obtain ⟨x, y, z, rfl⟩ : ∃ x y z, l = [x, y, z] := List.length_eq_three.mp hp.length_eq
  simp only [List.pairwise_cons, List.mem_cons, List.not_mem_nil, or_false, forall_eq_or_imp, forall_eq] at hs
  obtain ⟨⟨hxy, hxz⟩, hyz, _⟩ := hs
  have hx : x ∈ [a, b, c] := hp.mem_iff.mp (by simp)
  have hy : y ∈ [a, b, c] := hp.mem_iff.mp (by simp)
  have hz : z ∈ [a, b, c] := hp.mem_iff.mp (by simp)
  have ha : a ∈ [x, y, z] := hp.mem_iff.mpr (by simp)
  have hb : b ∈ [x, y, z] := hp.mem_iff.mpr (by simp)
  have hc : c ∈ [x, y, z] := hp.mem_iff.mpr (by simp)
  simp only [List.mem_cons, List.not_mem_nil, or_false] at hx hy hz ha hb hc
  clear hp
  grind

end Rez
