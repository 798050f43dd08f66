import Verif.Lemmas.Resolver
/-!
# Lemmas about the choice of a variant
-/
namespace Rez
open Rez.Spec Rez.RState Rez.Resolver

/-- the part of the key that the claim is about -/
def merit (k : VariantKey) : Nat × Nat × Nat := (k.matched, k.shared, k.size)

theorem preferred_trans {a b c : Nat × Nat × Nat} (h1 : Preferred a b) (h2 : Preferred b c) : Preferred a c := by
  unfold Preferred at *; omega

theorem preferred_refl (a : Nat × Nat × Nat) : Preferred a a := by unfold Preferred; omega

theorem cmpKey_gt {a b : VariantKey} (h : Resolver.cmpKey a b = .gt) : Preferred (merit a) (merit b) := by
  unfold Resolver.cmpKey at h
  unfold Preferred merit
  rcases Nat.lt_trichotomy a.matched b.matched with h1 | h1 | h1
  · rw [Nat.compare_eq_lt.mpr h1] at h; cases h
  · rw [h1, Nat.compare_eq_eq.mpr rfl] at h
    simp only [Ordering.then] at h
    rcases Nat.lt_trichotomy a.shared b.shared with h2 | h2 | h2
    · rw [Nat.compare_eq_lt.mpr h2] at h; cases h
    · rw [h2, Nat.compare_eq_eq.mpr rfl] at h
      simp only at h
      rcases Nat.lt_trichotomy b.size a.size with h3 | h3 | h3
      · rw [Nat.compare_eq_lt.mpr h3] at h; cases h
      · simp only; omega
      · simp only; omega
    · simp only; omega
  · simp only; omega

theorem cmpKey_not_gt {a b : VariantKey} (h : Resolver.cmpKey a b ≠ .gt) : Preferred (merit b) (merit a) := by
  unfold Resolver.cmpKey at h
  unfold Preferred merit
  rcases Nat.lt_trichotomy a.matched b.matched with h1 | h1 | h1
  · simp only; omega
  · rw [h1, Nat.compare_eq_eq.mpr rfl] at h
    simp only [Ordering.then] at h
    rcases Nat.lt_trichotomy a.shared b.shared with h2 | h2 | h2
    · simp only; omega
    · rw [h2, Nat.compare_eq_eq.mpr rfl] at h
      simp only at h
      rcases Nat.lt_trichotomy b.size a.size with h3 | h3 | h3
      · simp only; omega
      · simp only; omega
      · rw [Nat.compare_eq_gt.mpr h3] at h; exact absurd rfl h
    · rw [Nat.compare_eq_gt.mpr h2] at h; exact absurd rfl h
  · rw [Nat.compare_eq_gt.mpr h1] at h; exact absurd rfl h

theorem foldMaxKey_max (ks : List VariantKey) (acc : Option VariantKey) (k : VariantKey)
    (h : ks.foldl maxKey acc = some k) :
    (∀ a, acc = some a → Preferred (merit k) (merit a)) ∧ ∀ a ∈ ks, Preferred (merit k) (merit a) := by
  induction ks generalizing acc with
  | nil =>
    refine ⟨fun a ha => ?_, fun a ha => by cases ha⟩
    simp only [List.foldl_nil] at h
    rw [h] at ha
    cases ha
    exact preferred_refl _
  | cons b ks ih =>
    obtain ⟨h1, h2⟩ := ih _ h
    have hb : Preferred (merit k) (merit b) ∧ ∀ a, acc = some a → Preferred (merit k) (merit a) := by
      cases acc with
      | none => exact ⟨h1 b rfl, fun a ha => by cases ha⟩
      | some a =>
        unfold maxKey at h1
        by_cases hg : Resolver.cmpKey a b = .gt
        · simp only [hg, if_true] at h1
          refine ⟨preferred_trans (h1 a rfl) (cmpKey_gt hg), fun a' ha' => ?_⟩
          cases ha'; exact h1 a rfl
        · simp only [hg, if_false] at h1
          refine ⟨h1 b rfl, fun a' ha' => ?_⟩
          cases ha'; exact preferred_trans (h1 b rfl) (cmpKey_not_gt hg)
    refine ⟨hb.2, fun a ha => ?_⟩
    rcases List.mem_cons.mp ha with rfl | ha
    · exact hb.1
    · exact h2 a ha

theorem foldMaxKey_none (ks : List VariantKey) (acc : Option VariantKey) (h : ks.foldl maxKey acc = none) :
    ks = [] ∧ acc = none := by
  induction ks generalizing acc with
  | nil => exact ⟨rfl, h⟩
  | cons b ks ih =>
    have := (ih _ h).2
    unfold maxKey at this
    split at this
    · cases this
    · split at this <;> cases this

theorem variantKeys_mem (s : RState) (vs : List (List Str)) (n j : Nat) (w : List Str) (h : vs[j]? = some w)
    (hc : variantCompatible s w = true) : variantKey s (n + j) w ∈ variantKeys s n vs := by
  induction vs generalizing n j with
  | nil => cases h
  | cons v vs ih =>
    unfold variantKeys
    cases j with
    | zero =>
      simp only [List.getElem?_cons_zero, Option.some.injEq] at h
      subst h
      rw [if_pos hc]
      exact List.mem_append_left _ (List.mem_singleton.mpr rfl)
    | succ j =>
      simp only [List.getElem?_cons_succ] at h
      have := ih (n + 1) j h
      rw [show n + 1 + j = n + (j + 1) by omega] at this
      exact List.mem_append_right _ this

theorem parseVariantReq_eq (raw : Str) : parseVariantReq raw =
    if raw.head? = some '!' then (Requirement.parse raw.tail).map fun q => (true, q)
    else (Requirement.parse raw).map fun q => (false, q) := by
  cases raw with
  | nil => rfl
  | cons a l =>
    by_cases h : a = '!'
    · subst h; rfl
    · rw [if_neg (by simpa using h)]
      unfold parseVariantReq
      split
      · rename_i heq; simp only [List.cons.injEq] at heq; exact absurd heq.1 h
      · rfl

theorem nodup_name_inj {l : List Info} (h : (l.map fun i => i.package.name).Nodup) {x y : Info} (hx : x ∈ l)
    (hy : y ∈ l) (hxy : x.package.name = y.package.name) : x = y := by
  induction l with
  | nil => cases hx
  | cons a l ih =>
    rw [List.map_cons, List.nodup_cons] at h
    rcases List.mem_cons.mp hx with rfl | hx' <;> rcases List.mem_cons.mp hy with rfl | hy'
    · rfl
    · exact absurd (hxy ▸ List.mem_map.mpr ⟨y, hy', rfl⟩) h.1
    · exact absurd (hxy ▸ List.mem_map.mpr ⟨x, hx', rfl⟩) h.1
    · exact ih h.2 hx' hy'

theorem textAdmits_iff {s : RState} (hn : (s.resolved.map fun i => i.package.name).Nodup) (raw : Str) :
    (match parseVariantReq raw with
      | none => false
      | some (c, r) => variantReqOk s c r) = true ↔ TextAdmits s.resolved raw := by
  unfold TextAdmits
  rw [parseVariantReq_eq]
  by_cases h : raw.head? = some '!'
  · rw [if_pos h, if_pos h]
    cases hp : Requirement.parse raw.tail with
    | none => simp
    | some r =>
      simp only [Option.map_some, Option.some.injEq, exists_eq_left']
      unfold variantReqOk
      cases hf : s.resolved.find? fun i => i.package.name == r.name with
      | none =>
        simp only [true_iff]
        intro i hi hin
        have := List.find?_eq_none.mp hf i hi
        simp [hin] at this
      | some i =>
        have hi := List.mem_of_find?_eq_some hf
        have hin := List.find?_some hf
        simp only [beq_iff_eq] at hin
        have huniq : ∀ j ∈ s.resolved, j.package.name = r.name → j = i := by
          intro j hj hjn
          exact nodup_name_inj hn hj hi (hjn.trans hin.symm)
        simp only
        constructor
        · intro hv j hj hjn hr
          rw [huniq j hj hjn] at hr
          cases hver : i.package.version with
          | none => rw [hver] at hv; cases hv
          | some v =>
            rw [hver] at hv
            simp only [hr v hver, Bool.not_true, Bool.false_eq_true] at hv
        · intro hj
          have hx := hj i hi hin
          unfold InRange at hx
          cases hver : i.package.version with
          | none => exact absurd (fun v hv => by rw [hver] at hv; cases hv) hx
          | some v =>
            simp only [Bool.not_eq_true']
            by_contra hc
            refine hx fun w hw => ?_
            rw [hver] at hw
            cases hw
            simpa using hc
  · rw [if_neg h, if_neg h]
    cases hp : Requirement.parse raw with
    | none => simp
    | some r => simp [variantReqOk]

theorem variantCompatible_iff {s : RState} (hn : (s.resolved.map fun i => i.package.name).Nodup) (vs : List Str) :
    variantCompatible s vs = true ↔ VariantAdmitted s.resolved vs := by
  unfold variantCompatible VariantAdmitted
  rw [List.all_eq_true]
  exact forall₂_congr fun raw _ => textAdmits_iff hn raw

theorem positive_cons (raw : Str) (l : List Str) : positive (raw :: l) =
    (if raw.head? = some '!' then [] else (Requirement.parse raw).toList) ++ positive l := by
  unfold positive
  rw [List.filterMap_cons, parseVariantReq_eq]
  by_cases h : raw.head? = some '!'
  · rw [if_pos h, if_pos h]
    cases Requirement.parse raw.tail <;> rfl
  · rw [if_neg h, if_neg h]
    cases Requirement.parse raw <;> rfl

open Classical in
/-- counting requirements is counting texts -/
theorem positive_count (f : Requirement → Bool) (l : List Str) :
    ((positive l).filter f).length =
      l.countP fun raw => decide (raw.head? ≠ some '!' ∧ ∃ r, Requirement.parse raw = some r ∧ f r = true) := by
  induction l with
  | nil => rfl
  | cons raw l ih =>
    rw [positive_cons, List.filter_append, List.length_append, ih, List.countP_cons]
    by_cases h : raw.head? = some '!'
    · simp [h]
    · cases hp : Requirement.parse raw with
      | none => simp
      | some r =>
        rw [if_neg h]
        by_cases hf : f r = true
        · simp [h, hf]; omega
        · simp [hf]

open Classical in
theorem variantMerit_eq (s : RState) (j : Nat) {vs : List Str} (hr : ∀ raw ∈ vs, (parseVariantReq raw).isSome = true) :
    merit (variantKey s j vs) = variantMerit s.original s.resolved vs := by
  unfold merit variantMerit variantKey
  simp only [Prod.mk.injEq]
  refine ⟨?_, ?_, ?_⟩
  · rw [positive_count]
    refine List.countP_congr fun raw _ => ?_
    simp only [decide_eq_true_eq]
    unfold TextMet resolvedMatch
    refine and_congr_right fun _ => exists_congr fun r => and_congr_right fun _ => ?_
    rw [List.any_eq_true]
    refine exists_congr fun i => and_congr_right fun _ => ?_
    cases i.package.version <;> simp
  · rw [positive_count]
    refine List.countP_congr fun raw _ => ?_
    simp only [decide_eq_true_eq]
    unfold TextRequested
    simp
  · have : positive vs = (positive vs).filter fun _ => true := by simp
    rw [this, positive_count]
    refine List.countP_congr fun raw hraw => ?_
    simp only [decide_eq_true_eq]
    refine ⟨fun h => h.1, fun h => ⟨h, ?_⟩⟩
    have hs := hr raw hraw
    rw [parseVariantReq_eq, if_neg h, Option.isSome_map, Option.isSome_iff_exists] at hs
    obtain ⟨r, hs⟩ := hs
    exact ⟨r, hs, trivial⟩

theorem compatible_readable {s : RState} {vs : List Str} (h : variantCompatible s vs = true) :
    ∀ raw ∈ vs, (parseVariantReq raw).isSome = true := by
  intro raw hraw
  unfold variantCompatible at h
  have := List.all_eq_true.mp h raw hraw
  cases hp : parseVariantReq raw with
  | none => rw [hp] at this; cases this
  | some _ => rfl

end Rez
