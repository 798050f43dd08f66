import Verif.Lemmas.RequirementParse
import Verif.Lemmas.VersionNumeric
/-! Lemmas about requirement satisfaction and the context-side requirement. -/
namespace Rez
open Spec

theorem utf8Size_pos (c : Char) : 0 < c.utf8Size := by
  unfold Char.utf8Size; simp only; split <;> (try split) <;> (try split) <;> omega

theorem sliceBytes_append (a r : Str) : sliceBytes (byteLen a) (a ++ r) = some r := by
  induction a with
  | nil => cases r <;> rfl
  | cons c a ih =>
    have h := utf8Size_pos c
    have e : byteLen (c :: a) = c.utf8Size + byteLen a := by simp [byteLen]
    obtain ⟨n, hn⟩ : ∃ n, byteLen (c :: a) = n + 1 := ⟨byteLen (c :: a) - 1, by omega⟩
    rw [hn, List.cons_append, sliceBytes, if_pos (by omega)]
    have : n + 1 - c.utf8Size = byteLen a := by omega
    rw [this, ih]

theorem satisfiedAll_iff (cs : List VersionConstraint) (w : Version) :
    VersionConstraint.satisfiedAll cs w = cs.all fun c => c.satisfied w := by
  induction cs with
  | nil => rfl
  | cons c cs ih => simp [VersionConstraint.satisfiedAll, ih]

theorem satisfiedAny_iff (cs : List VersionConstraint) (w : Version) :
    VersionConstraint.satisfiedAny cs w = cs.any fun c => c.satisfied w := by
  induction cs with
  | nil => rfl
  | cons c cs ih => simp [VersionConstraint.satisfiedAny, ih]

theorem prOperator_text (o : ROp) {r : Str} (h : r.head? ≠ some '=') :
    prOperator (o.text ++ r) = some (o.text, r) := by
  have h' : ∀ x xs, r = x :: xs → x ≠ '=' := by
    intro x xs hx he; subst he; rw [hx] at h; exact h rfl
  cases r with
  | nil => cases o <;> simp [prOperator, ROp.text, List.findSome?, List.isPrefixOf]
  | cons x xs =>
    have := h' x xs rfl
    cases o <;> simp [prOperator, ROp.text, List.findSome?, List.isPrefixOf, Ne.symm this]

theorem checkSingle_text {c : ROp × Version} (h : RealVersion c.2) (w : Version) :
    checkSingle w (ropText c) = (c.1.constraint c.2).satisfied w := by
  unfold checkSingle ropText
  rw [prOperator_text c.1 (RealVersion.head h)]
  simp only [prCompare]
  rw [parse_asStr h.1]
  cases c.1 <;> rfl

theorem listText_single (c : ROp × Version) : listText [c] = ropText c := rfl

/-- the context-side requirement accepts what every constraint of the list accepts -/
theorem satisfiedBy_listText {cs : List (ROp × Version)} (hne : cs ≠ []) (hv : ∀ c ∈ cs, RealVersion c.2)
    (n : Str) (a b : Bool) (w : Version) :
    PackageRequirement.satisfiedBy ⟨n, some (listText cs), a, b⟩ w =
      cs.all fun c => (c.1.constraint c.2).satisfied w := by
  have hnw : ∀ d ∈ listText cs, isWs d = false := by
    intro d hd
    rcases mem_joinWith hd with hd | ⟨p, hp, hd⟩
    · simp at hd; subst hd; decide
    · rw [List.mem_map] at hp
      obtain ⟨c, hc, rfl⟩ := hp
      exact ropText_noWs (hv c hc) d hd
  have hs : splitChar ',' (listText cs) = cs.map ropText := by
    refine splitChar_join (by simpa using hne) ?_
    intro p hp
    rw [List.mem_map] at hp
    obtain ⟨c, hc, rfl⟩ := hp
    exact ropText_not_mem (hv c hc) (by decide) (by decide) (by decide)
  have hall : ((cs.map ropText).all fun p => checkSingle w (trim p)) =
      cs.all fun c => (c.1.constraint c.2).satisfied w := by
    clear hs hnw hne
    induction cs with
    | nil => rfl
    | cons c cs ih =>
      simp only [List.map_cons, List.all_cons]
      rw [trim_of_noWs (ropText_noWs (hv c (by simp))), checkSingle_text (hv c (by simp)),
        ih (fun c hc => hv c (by simp [hc]))]
  unfold PackageRequirement.satisfiedBy
  simp only [trim_of_noWs hnw]
  obtain ⟨c, cs', rfl⟩ := List.exists_cons_of_ne_nil hne
  have hnil : (listText (c :: cs')).isEmpty = false := by
    obtain ⟨x, xs, hx, _⟩ := ROp.text_head c.1
    cases cs' with
    | nil => simp [listText, joinWith, ropText, hx]
    | cons d l => simp [listText, joinWith, ropText, hx]
  rw [hnil]
  simp only [Bool.false_eq_true, if_false]
  split
  · rw [hs, hall]
  · rename_i hc
    cases cs' with
    | nil => rw [listText_single, checkSingle_text (hv c (by simp))]; simp
    | cons d l => exact absurd (by simp [listText, joinWith]) hc

/-! ### numeric versions -/

theorem decimal_noDot (n : Nat) : '.' ∉ decimal n := by
  intro h
  have := List.all_eq_true.mp (decimal_digits n) _ h
  revert this; decide

theorem splitChar_dotted {ns : List Nat} (h : ns ≠ []) : splitChar '.' (dotted ns) = ns.map decimal := by
  refine splitChar_join (by simpa using h) ?_
  intro p hp
  rw [List.mem_map] at hp
  obtain ⟨n, _, rfl⟩ := hp
  exact decimal_noDot n

theorem parseU64_dec {x : Nat} (h : x < 2 ^ 64) : parseU64 (decimal x) = some x := by
  rw [parseU64_digits (decimal_ne x) (decimal_digits x) (by rw [decimal_val]; exact h), decimal_val]

theorem decimal_inj {a b : Nat} (h : decimal a = decimal b) : a = b := by
  rw [← decimal_val a, ← decimal_val b, h]

theorem cmpParts_numeric {xs ys : List Nat} (hx : ∀ x ∈ xs, x < 2 ^ 64) (hy : ∀ y ∈ ys, y < 2 ^ 64)
    (hl : ys.length ≤ xs.length) :
    (cmpParts (xs.map decimal) (ys.map decimal) = .lt ↔ xs.take ys.length < ys) ∧
    (cmpParts (xs.map decimal) (ys.map decimal) = .eq ↔ xs.take ys.length = ys) ∧
    (cmpParts (xs.map decimal) (ys.map decimal) = .gt ↔ ys < xs.take ys.length) := by
  induction ys generalizing xs with
  | nil => cases xs <;> simp [cmpParts]
  | cons y ys ih =>
    cases xs with
    | nil => simp at hl
    | cons x xs =>
      have ih' := ih (xs := xs) (fun a ha => hx a (by simp [ha])) (fun a ha => hy a (by simp [ha])) (by simpa using hl)
      simp only [List.map_cons, cmpParts, parseU64_dec (hx x (by simp)), parseU64_dec (hy y (by simp)),
        List.length_cons, List.take_succ_cons, List.cons_lt_cons_iff, List.cons.injEq]
      rcases Nat.lt_trichotomy x y with h | h | h
      · rw [Nat.compare_eq_lt.mpr h]; simp [Ordering.then, h, Nat.ne_of_lt h, Nat.ne_of_gt h, Nat.le_of_lt h]
      · subst h; simp [Ordering.then, ih'.1, ih'.2.1, ih'.2.2]
      · rw [Nat.compare_eq_gt.mpr h]; simp [Ordering.then, h, Nat.ne_of_lt h, Nat.ne_of_gt h, Nat.le_of_lt h]

theorem compatParts_numeric {xs pre : List Nat} {y : Nat} (hx : ∀ x ∈ xs, x < 2 ^ 64) (hy : y < 2 ^ 64) :
    compatParts (xs.map decimal) ((pre ++ [y]).map decimal) = true ↔
      ∃ x rest, xs = pre ++ x :: rest ∧ y ≤ x := by
  induction pre generalizing xs with
  | nil =>
    cases xs with
    | nil => simp [compatParts]
    | cons x xs =>
      simp only [List.nil_append, List.map_cons, List.map_nil, compatParts, parseU64_dec (hx x (by simp)),
        parseU64_dec hy]
      simp
  | cons p pre ih =>
    cases xs with
    | nil =>
      cases pre <;> simp [compatParts]
    | cons x xs =>
      have ih' := ih (xs := xs) (fun a ha => hx a (by simp [ha]))
      obtain ⟨q, qs, hq⟩ : ∃ q qs, (pre ++ [y]).map decimal = q :: qs := by
        cases h : (pre ++ [y]).map decimal with
        | nil => simp at h
        | cons q qs => exact ⟨q, qs, rfl⟩
      simp only [List.cons_append, List.map_cons]
      rw [hq] at ih' ⊢
      simp only [compatParts, Bool.and_eq_true, beq_iff_eq, ih', List.cons.injEq]
      constructor
      · rintro ⟨h, a, r, rfl, hle⟩; exact ⟨a, r, ⟨decimal_inj h, rfl⟩, hle⟩
      · rintro ⟨a, r, ⟨rfl, rfl⟩, hle⟩; exact ⟨rfl, a, r, rfl, hle⟩

theorem wildcardParts_star {ps vs : List Str} (h : ∀ p ∈ ps, p ≠ c!"*") :
    wildcardParts (ps ++ [c!"*"]) vs = true ↔ ps <+: vs := by
  induction ps generalizing vs with
  | nil => simp [wildcardParts]
  | cons p ps ih =>
    have hp : (p == c!"*") = false := by simpa using h p (by simp)
    simp only [List.cons_append, wildcardParts, hp, Bool.false_eq_true, if_false]
    cases vs with
    | nil => simp
    | cons v vs =>
      simp only [bne_iff_ne, ne_eq, ite_not]
      rw [List.cons_prefix_cons]
      by_cases hpv : p = v
      · simp [hpv, ih (fun q hq => h q (by simp [hq]))]
      · simp [hpv]

/-! ### names are sublists of the input -/

theorem splitOnce_eq {p s a b : Str} (h : splitOnce p s = some (a, b)) : s = a ++ p ++ b := by
  induction s generalizing a b with
  | nil =>
    simp only [splitOnce] at h
    split at h
    · rename_i hp; simp at h hp; obtain ⟨rfl, rfl⟩ := h; simp [hp]
    · cases h
  | cons c s ih =>
    simp only [splitOnce] at h
    split at h
    · rename_i hp
      simp at h; obtain ⟨rfl, rfl⟩ := h
      rw [List.isPrefixOf_iff_prefix] at hp
      obtain ⟨t, ht⟩ := hp
      rw [← ht]; simp
    · cases hs : splitOnce p s with
      | none => rw [hs] at h; cases h
      | some q =>
        rw [hs] at h; simp at h
        obtain ⟨rfl, rfl⟩ := h
        rw [List.cons_append, List.cons_append, ← ih hs]

theorem rsplitOnce_eq {d : Char} {s a b : Str} (h : rsplitOnce d s = some (a, b)) : s = a ++ d :: b := by
  induction s generalizing a b with
  | nil => simp [rsplitOnce] at h
  | cons c s ih =>
    rw [rsplitOnce] at h
    split at h
    · rename_i a' b' he
      simp at h; obtain ⟨rfl, rfl⟩ := h; rw [ih he]; rfl
    · split at h
      · rename_i hc; simp at h hc; obtain ⟨rfl, rfl⟩ := h; rw [hc]; rfl
      · cases h

theorem parseConditions_sublist {fuel : Nat} {before s rest : Str} {ps P : List PlatformCondition}
    {es E : List EnvCondition} (h : parseConditions fuel before s ps es = some (rest, P, E)) :
    rest.Sublist (before ++ s) := by
  induction fuel generalizing before s ps es with
  | zero => cases h
  | succ fuel ih =>
    rw [parseConditions] at h
    split at h
    · simp at h; rw [← h.1]; exact List.Sublist.refl _
    · rename_i pre r hs
      split at h
      · cases h
      · rename_i cond after hs2
        have key : ∀ t : Str, t.Sublist (before ++ pre ++ after) → t.Sublist (before ++ s) := by
          intro t ht
          refine ht.trans ?_
          rw [splitOnce_eq hs, splitOnce_eq hs2, List.append_assoc, List.append_assoc]
          refine List.Sublist.append_left (List.Sublist.append_left ?_ _) _
          exact (List.sublist_append_right _ _).trans (List.sublist_append_right _ _)
        split at h
        · split at h
          · cases h
          · exact key _ (ih h)
        · split at h
          · split at h
            · cases h
            · exact key _ (ih h)
          · cases h

theorem parseNameVersion_prefix {s name : Str} {c : Option VersionConstraint}
    (h : parseNameVersion s = some (name, c)) : name <+: s := by
  unfold parseNameVersion at h
  split at h
  · rename_i n pat hm
    simp at h; rw [← h.1]
    unfold matchWildcard at hm
    simp only at hm
    split at hm
    · split at hm
      · simp at hm; rw [← hm.1]; exact List.takeWhile_prefix _
      · cases hm
    · cases hm
  · split at h
    · rename_i n op v hm
      have hn : n <+: s := by
        unfold matchBasic at hm
        simp only at hm
        split at hm
        · cases hm
        · simp at hm; obtain ⟨_, _, _, h, _⟩ := hm; rw [← h]; exact List.takeWhile_prefix _
      split at h
      · simp at h; obtain ⟨_, _, h, _⟩ := h; rw [← h]; exact hn
      · simp [Option.bind_eq_some_iff] at h
        obtain ⟨_, _, _, _, h, _⟩ := h
        rw [← h]; exact hn
    · split at h
      · rename_i r hp
        simp at h; subst h
        unfold parsePlusForm at hp
        split at hp
        · cases hp
        · simp only [Option.bind_eq_bind, Option.bind_eq_some_iff] at hp
          obtain ⟨⟨a, b⟩, hr, v, _, hp⟩ := hp
          simp at hp
          rw [← hp.1]
          have : a <+: s.dropLast := by rw [rsplitOnce_eq hr]; exact List.prefix_append _ _
          exact this.trans (List.dropLast_prefix s)
      · split at h
        · rename_i r hp
          simp at h; subst h
          unfold parseDashForm at hp
          simp only [Option.bind_eq_bind, Option.bind_eq_some_iff] at hp
          obtain ⟨⟨a, b⟩, hr, v, _, hp⟩ := hp
          simp at hp
          rw [← hp.1, splitOnce_eq hr, List.append_assoc]
          exact List.prefix_append _ _
        · simp at h; rw [h.1]; exact List.prefix_refl _

theorem trim_sublist (s : Str) : (trim s).Sublist s := by
  unfold trim trimEnd trimStart
  have h1 : (s.dropWhile isWs).Sublist s := List.dropWhile_sublist _
  have h2 : ((s.dropWhile isWs).reverse.dropWhile isWs).reverse.Sublist (s.dropWhile isWs).reverse.reverse :=
    List.Sublist.reverse (List.dropWhile_sublist _)
  rw [List.reverse_reverse] at h2
  exact h2.trans h1

theorem stripConflict_sublist (s : Str) : (stripConflict s).1.Sublist s := by
  unfold stripConflict; split
  · exact List.sublist_cons_self _ _
  · exact List.Sublist.refl _
theorem stripWeak_sublist (s : Str) (b : Bool) : (stripWeak s b).1.Sublist s := by
  unfold stripWeak; split
  · exact List.Sublist.refl _
  · split
    · exact List.sublist_cons_self _ _
    · exact List.Sublist.refl _
theorem stripNamespace_sublist (s : Str) : (stripNamespace s).1.Sublist s := by
  unfold stripNamespace
  split
  · rename_i n r h
    unfold matchNamespace at h
    simp only at h
    split at h
    · rename_i c rest he
      split at h
      · simp at h; rw [← h.2]
        have : (s.dropWhile nameChar).Sublist s := List.dropWhile_sublist _
        rw [he] at this
        exact ((List.sublist_cons_self _ _).trans (List.sublist_cons_self _ _)).trans this
      · cases h
    · cases h
  · exact List.Sublist.refl _

theorem parse_name_sublist {s : Str} {r : Requirement} (h : Requirement.parse s = some r) : r.name.Sublist s := by
  unfold Requirement.parse at h
  simp only [Option.bind_eq_bind, Option.bind_eq_some_iff] at h
  obtain ⟨⟨rest, ps, es⟩, h1, ⟨name, c⟩, h2, h3⟩ := h
  simp at h3
  subst h3
  refine (parseNameVersion_prefix h2).sublist.trans ((parseConditions_sublist h1).trans ?_)
  rw [List.nil_append]
  exact (stripNamespace_sublist _).trans ((stripWeak_sublist _ _).trans ((stripConflict_sublist _).trans (trim_sublist s)))

theorem sliceBytes_ascii {s : Str} (h : ∀ c ∈ s, c.toNat < 128) {n : Nat} (hn : n ≤ s.length) :
    sliceBytes n s = some (s.drop n) := by
  induction s generalizing n with
  | nil => simp at hn; subst hn; rfl
  | cons c s ih =>
    cases n with
    | zero => rfl
    | succ n =>
      have hc : c.utf8Size = 1 := by
        have := h c (by simp)
        unfold Char.utf8Size
        have h' : c.val ≤ 0x7f := by
          rw [UInt32.le_iff_toNat_le]
          have e : c.toNat = c.val.toNat := rfl
          rw [e] at this
          have : (0x7f : UInt32).toNat = 127 := rfl
          omega
        simp [h']
      rw [sliceBytes, hc, if_pos (by omega)]
      exact ih (fun d hd => h d (by simp [hd])) (by simpa using hn)

theorem byteLen_ascii {s : Str} (h : ∀ c ∈ s, c.toNat < 128) : byteLen s = s.length := by
  induction s with
  | nil => rfl
  | cons c s ih =>
    have hc : c.utf8Size = 1 := by
      have := h c (by simp)
      unfold Char.utf8Size
      have h' : c.val ≤ 0x7f := by
        rw [UInt32.le_iff_toNat_le]
        have e : c.toNat = c.val.toNat := rfl
        rw [e] at this
        have : (0x7f : UInt32).toNat = 127 := rfl
        omega
      simp [h']
    have := ih (fun d hd => h d (by simp [hd]))
    simp [byteLen] at this ⊢
    rw [hc, this]; omega

end Rez
