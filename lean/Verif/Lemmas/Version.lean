import Verif.Model.Version
import Std
/-! Helper lemmas about version comparison. -/
namespace Rez
open Std

attribute [local simp] List.compareLex_nil_nil List.compareLex_nil_cons List.compareLex_cons_nil
  List.compareLex_cons_cons

/-! ### Generic -/

theorem swap_then (o p : Ordering) : (o.then p).swap = o.swap.then p.swap := by
  cases o <;> rfl

theorem cmpStr_eq_lex (a b : Str) :
    cmpStr a b = List.compareLex (fun x y : Char => compare x.toNat y.toNat) a b := by
  induction a generalizing b with
  | nil => cases b <;> simp [cmpStr]
  | cons x xs ih => cases b <;> simp [cmpStr, List.compareLex_cons_cons, ih]

instance charCmpTrans : TransCmp (fun x y : Char => compare x.toNat y.toNat) where
  eq_swap := by intro a b; exact OrientedCmp.eq_swap (cmp := (compare : Nat → Nat → Ordering))
  isLE_trans := by
    intro a b c; exact TransCmp.isLE_trans (cmp := (compare : Nat → Nat → Ordering))

theorem cmpStr_fun : cmpStr = List.compareLex (fun x y : Char => compare x.toNat y.toNat) := by
  funext a b; exact cmpStr_eq_lex a b

instance cmpStrTrans : TransCmp cmpStr := by
  rw [cmpStr_fun]; infer_instance

theorem cmpStr_refl (a : Str) : cmpStr a a = .eq := ReflCmp.compare_self

theorem cmpStr_swap (a b : Str) : (cmpStr a b).swap = cmpStr b a :=
  (OrientedCmp.eq_swap (cmp := cmpStr)).symm

theorem char_toNat_inj {a b : Char} (h : a.toNat = b.toNat) : a = b := by
  apply Char.ext; apply UInt32.toNat_inj.mp; exact h

theorem cmpStr_eq_iff (a b : Str) : cmpStr a b = .eq ↔ a = b := by
  constructor
  · intro h
    induction a generalizing b with
    | nil => cases b <;> simp_all [cmpStr]
    | cons x xs ih =>
      cases b with
      | nil => simp [cmpStr] at h
      | cons y ys =>
        simp only [cmpStr, Ordering.then_eq_eq] at h
        have := char_toNat_inj (Nat.compare_eq_eq.mp h.1)
        rw [this, ih _ h.2]
  · rintro rfl; exact cmpStr_refl a

/-! ### Swap symmetry of every layer -/

theorem compare_nat_swap (a b : Nat) : (compare a b).swap = compare b a :=
  (OrientedCmp.eq_swap (cmp := (compare : Nat → Nat → Ordering))).symm
theorem compare_int_swap (a b : Int) : (compare a b).swap = compare b a :=
  (OrientedCmp.eq_swap (cmp := (compare : Int → Int → Ordering))).symm

theorem cmpSegment_swap (a b : Str) : (cmpSegment a b).swap = cmpSegment b a := by
  unfold cmpSegment
  cases parseU64 a <;> cases parseU64 b <;> simp [cmpStr_swap, compare_nat_swap]

theorem cmpSegments_swap (a b : List Str) : (cmpSegments a b).swap = cmpSegments b a := by
  induction a generalizing b with
  | nil => cases b <;> rfl
  | cons x xs ih =>
    cases b with
    | nil => rfl
    | cons y ys => simp only [cmpSegments, swap_then, cmpSegment_swap, ih]

theorem cmpSegments_refl (a : List Str) : cmpSegments a a = .eq := by
  have h := cmpSegments_swap a a
  cases h' : cmpSegments a a <;> simp_all

theorem alpha_not_digit {c : Char} (h : isAlpha c = true ∨ c = '_') : isDigit c = false := by
  rcases h with h | h
  · simp only [isAlpha, isDigit, Bool.or_eq_true, Bool.and_eq_true, decide_eq_true_eq, Bool.and_eq_false_iff,
      decide_eq_false_iff_not] at *
    omega
  · subst h; decide

theorem allAlpha_allNum_nil {t : Str} (h1 : allAlpha t = true) (h2 : allNum t = true) : t = [] := by
  cases t with
  | nil => rfl
  | cons c cs =>
    simp only [allAlpha, allNum, List.all_cons, Bool.and_eq_true, Bool.or_eq_true, beq_iff_eq] at h1 h2
    rw [alpha_not_digit h1.1] at h2; simp at h2

theorem cmpToken_swap (a b : Str) : (cmpToken a b).swap = cmpToken b a := by
  unfold cmpToken
  cases ha : parseI64 a <;> cases hb : parseI64 b <;> simp only [compare_int_swap]
  all_goals
    by_cases hab : a = b
    · subst hab; simp
    · have hba : ¬ b = a := fun h => hab h.symm
      simp only [beq_iff_eq, hab, hba, if_false]
      by_cases h1 : allAlpha a <;> by_cases h2 : allNum b <;> by_cases h3 : allNum a <;>
        by_cases h4 : allAlpha b <;>
        simp_all [cmpStr_swap, cmpSegments_swap]
      all_goals
        exact (hab ((allAlpha_allNum_nil h1 h3).trans (allAlpha_allNum_nil h4 h2).symm)).elim

theorem cmpToken_refl (a : Str) : cmpToken a a = .eq := by
  have h := cmpToken_swap a a
  cases h' : cmpToken a a <;> simp_all

theorem cmpTokens_swap (a b : List Str) : (cmpTokens a b).swap = cmpTokens b a := by
  induction a generalizing b with
  | nil => cases b <;> simp only [cmpTokens] <;> (try split) <;> rfl
  | cons x xs ih =>
    cases b with
    | nil => simp only [cmpTokens]; split <;> rfl
    | cons y ys => simp only [cmpTokens, swap_then, cmpToken_swap, ih]

theorem cmpTokens_refl (a : List Str) : cmpTokens a a = .eq := by
  have h := cmpTokens_swap a a
  cases h' : cmpTokens a a <;> simp_all

namespace Version

theorem cmp_swap (a b : Version) : (a.cmp b).swap = b.cmp a := by
  unfold cmp
  cases a.isInf <;> cases b.isInf <;> cases a.isEmpty <;> cases b.isEmpty <;> simp [cmpTokens_swap]

theorem cmp_refl (a : Version) : a.cmp a = .eq := by
  have h := cmp_swap a a
  cases h' : a.cmp a <;> simp_all

end Version

/-! ### The key of a token -/

/-- One segment of a token as a value: a word or a number. -/
inductive Comp where
  | word (w : Str)
  | num (n : Nat)

/-- words before numbers, words lexicographically, numbers numerically -/
def cmpComp : Comp → Comp → Ordering
  | .word a, .word b => cmpStr a b
  | .word _, .num _ => .lt
  | .num _, .word _ => .gt
  | .num a, .num b => compare a b

instance : TransCmp cmpComp where
  eq_swap := by
    intro a b
    cases a <;> cases b <;> simp only [cmpComp, Ordering.swap_lt, Ordering.swap_gt]
    · exact OrientedCmp.eq_swap (cmp := cmpStr)
    · exact OrientedCmp.eq_swap (cmp := (compare : Nat → Nat → Ordering))
  isLE_trans := by
    intro a b c h1 h2
    cases a <;> cases b <;> cases c <;> simp only [cmpComp] at * <;> try (simp_all; done)
    · exact TransCmp.isLE_trans (cmp := cmpStr) h1 h2
    · exact TransCmp.isLE_trans (cmp := (compare : Nat → Nat → Ordering)) h1 h2

/-- a segment as a value -/
def toComp (s : Str) : Comp := if s.all isDigit then .num (digitsVal s) else .word s
/-- a token as the list of its segment values -/
def tokKey (t : Str) : List Comp := (splitSegments t).map toComp
/-- comparison of token keys -/
def cmpKey : List Comp → List Comp → Ordering := List.compareLex cmpComp

instance : TransCmp cmpKey := by unfold cmpKey; infer_instance

/-- every digit run of `t` denotes a number below 2^64 -/
def SmallRuns (t : Str) : Prop := ∀ d : Str, d <:+: t → d.all isDigit = true → digitsVal d < 2 ^ 64

/-- the tokens the comparison lemma covers -/
structure GoodTok (t : Str) : Prop where
  ne : t ≠ []
  tok : t.all isTok = true
  small : SmallRuns t

theorem splitSegments_spec (t : Str) :
    (splitSegments t).flatten = t ∧
    ∀ s ∈ splitSegments t, s ≠ [] ∧ (s.all isDigit = true ∨ s.all (fun c => !isDigit c) = true) := by
  induction t with
  | nil => simp [splitSegments]
  | cons c cs ih =>
    obtain ⟨ih1, ih2⟩ := ih
    unfold splitSegments
    split
    · rename_i d ds rest heq
      rw [heq] at ih1 ih2
      have hd := ih2 (d :: ds) (by simp)
      split
      · rename_i hcd
        refine ⟨by simpa using ih1, ?_⟩
        intro s hs
        simp only [List.mem_cons] at hs
        rcases hs with rfl | hs
        · refine ⟨by simp, ?_⟩
          simp only [beq_iff_eq] at hcd
          rcases hd.2 with h | h
          · left; simp only [List.all_cons, Bool.and_eq_true] at h ⊢; exact ⟨by rw [hcd]; exact h.1, h⟩
          · right; simp only [List.all_cons, Bool.and_eq_true] at h ⊢; exact ⟨by rw [hcd]; exact h.1, h⟩
        · exact ih2 s (by simp [hs])
      · refine ⟨by simpa using ih1, ?_⟩
        intro s hs
        simp only [List.mem_cons] at hs
        rcases hs with rfl | hs
        · refine ⟨by simp, ?_⟩
          cases h : isDigit c <;> simp [h]
        · exact ih2 s (by simpa using hs)
    · refine ⟨by simpa using ih1, ?_⟩
      intro s hs
      simp only [List.mem_cons] at hs
      rcases hs with rfl | hs
      · refine ⟨by simp, ?_⟩
        cases h : isDigit c <;> simp [h]
      · exact ih2 s hs

theorem splitSegments_homog {t : Str} (hne : t ≠ [])
    (h : t.all isDigit = true ∨ t.all (fun c => !isDigit c) = true) : splitSegments t = [t] := by
  induction t with
  | nil => exact absurd rfl hne
  | cons c cs ih =>
    cases cs with
    | nil => simp [splitSegments]
    | cons d ds =>
      have h' : (d :: ds).all isDigit = true ∨ (d :: ds).all (fun c => !isDigit c) = true := by
        rcases h with h | h
        · left; simp only [List.all_cons, Bool.and_eq_true] at h ⊢; exact h.2
        · right; simp only [List.all_cons, Bool.and_eq_true] at h ⊢; exact h.2
      have hcd : isDigit c = isDigit d := by
        rcases h with h | h <;> simp only [List.all_cons, Bool.and_eq_true, Bool.not_eq_true'] at h <;>
          rw [h.1, h.2.1]
      rw [splitSegments, ih (by simp) h']
      simp [hcd]

theorem seg_infix {t s : Str} (h : s ∈ splitSegments t) : s <:+: t := by
  have := (splitSegments_spec t).1
  obtain ⟨l1, l2, hl⟩ := List.append_of_mem h
  rw [hl] at this
  exact ⟨l1.flatten, l2.flatten, by rw [← this]; simp⟩

theorem parseU64_digits {s : Str} (hne : s ≠ []) (h : s.all isDigit = true) (hs : digitsVal s < 2 ^ 64) :
    parseU64 s = some (digitsVal s) := by
  have hp : stripPlus s = s := by
    unfold stripPlus
    split
    · simp [isDigit] at h
    · rfl
  unfold parseU64
  rw [hp]
  have : s.isEmpty = false := by cases s <;> simp_all
  simp [this, h, hs]

theorem parseU64_nondigits {s : Str} (h : s.all (fun c => !isDigit c) = true) : parseU64 s = none := by
  unfold parseU64 stripPlus
  split
  · rename_i r
    cases r with
    | nil => simp
    | cons c cs =>
      simp only [List.all_cons, Bool.and_eq_true, Bool.not_eq_true'] at h
      simp [h.2.1]
  · cases s with
    | nil => simp
    | cons c cs =>
      simp only [List.all_cons, Bool.and_eq_true, Bool.not_eq_true'] at h
      simp [h.1]

/-- a segment of a good token -/
structure GoodSeg (s : Str) : Prop where
  ne : s ≠ []
  homog : s.all isDigit = true ∨ s.all (fun c => !isDigit c) = true
  small : s.all isDigit = true → digitsVal s < 2 ^ 64

theorem cmpSegment_key {a b : Str} (ha : GoodSeg a) (hb : GoodSeg b) :
    cmpSegment a b = cmpComp (toComp a) (toComp b) := by
  have key : ∀ s, GoodSeg s → (s.all isDigit = true ∧ parseU64 s = some (digitsVal s) ∧ toComp s = .num (digitsVal s)) ∨
      (parseU64 s = none ∧ toComp s = .word s) := by
    intro s hs
    by_cases h : s.all isDigit = true
    · exact Or.inl ⟨h, parseU64_digits hs.ne h (hs.small h), by simp [toComp, h]⟩
    · have h' := hs.homog.resolve_left h
      exact Or.inr ⟨parseU64_nondigits h', by simp only [toComp, if_neg h]⟩
  unfold cmpSegment
  rcases key a ha with ⟨_, h1, h2⟩ | ⟨h1, h2⟩ <;> rcases key b hb with ⟨_, h3, h4⟩ | ⟨h3, h4⟩ <;>
    simp [h1, h2, h3, h4, cmpComp]

theorem cmpSegments_key {a b : List Str} (ha : ∀ s ∈ a, GoodSeg s) (hb : ∀ s ∈ b, GoodSeg s) :
    cmpSegments a b = cmpKey (a.map toComp) (b.map toComp) := by
  induction a generalizing b with
  | nil => cases b <;> simp [cmpSegments, cmpKey]
  | cons x xs ih =>
    cases b with
    | nil => simp [cmpSegments, cmpKey]
    | cons y ys =>
      simp only [cmpSegments, cmpKey, List.map_cons, List.compareLex_cons_cons]
      rw [cmpSegment_key (ha x (by simp)) (hb y (by simp)),
        ih (fun s h => ha s (by simp [h])) (fun s h => hb s (by simp [h]))]
      rfl

theorem goodSegs {t : Str} (h : GoodTok t) : ∀ s ∈ splitSegments t, GoodSeg s := by
  intro s hs
  have h1 := (splitSegments_spec t).2 s hs
  exact ⟨h1.1, h1.2, fun hd => h.small s (seg_infix hs) hd⟩

theorem parseI64_good {t : Str} (h : t.all isTok = true) {n : Int} (hp : parseI64 t = some n) :
    t ≠ [] ∧ t.all isDigit = true ∧ n = (digitsVal t : Int) := by
  unfold parseI64 at hp
  split at hp
  · simp [isTok, isAlpha, isDigit] at h
  · simp [isTok, isAlpha, isDigit] at h
  · split at hp
    · rename_i hc
      simp only [Bool.and_eq_true, Bool.not_eq_true', decide_eq_true_eq] at hc
      refine ⟨?_, hc.1.2, by simpa using hp.symm⟩
      rintro rfl; simp at hc
    · simp at hp

theorem compare_int_nat (a b : Nat) : compare (a : Int) (b : Int) = compare a b := by
  rcases Nat.lt_trichotomy a b with h | h | h
  · rw [Nat.compare_eq_lt.mpr h, Int.compare_eq_lt.mpr (by omega)]
  · rw [Nat.compare_eq_eq.mpr h, Int.compare_eq_eq.mpr (by omega)]
  · rw [Nat.compare_eq_gt.mpr h, Int.compare_eq_gt.mpr (by omega)]

theorem allAlpha_nondigit {t : Str} (h : allAlpha t = true) : t.all (fun c => !isDigit c) = true := by
  simp only [allAlpha, List.all_eq_true, Bool.or_eq_true, beq_iff_eq] at *
  intro c hc
  simp [alpha_not_digit (h c hc)]

theorem cmpToken_key {a b : Str} (ha : GoodTok a) (hb : GoodTok b) :
    cmpToken a b = cmpKey (tokKey a) (tokKey b) := by
  have hseg : cmpSegments (splitSegments a) (splitSegments b) = cmpKey (tokKey a) (tokKey b) :=
    cmpSegments_key (goodSegs ha) (goodSegs hb)
  have hrest : (if (a == b) = true then Ordering.eq
    else if (allAlpha a && allNum b) = true then .lt
    else if (allNum a && allAlpha b) = true then .gt
    else if (allAlpha a && allAlpha b) = true then cmpStr a b
    else cmpSegments (splitSegments a) (splitSegments b)) = cmpKey (tokKey a) (tokKey b) := by
    by_cases hab : a = b
    · subst hab; simp [ReflCmp.compare_self (cmp := cmpKey)]
    simp only [beq_iff_eq, hab, if_false]
    have hn : ∀ t, GoodTok t → allNum t = true → tokKey t = [.num (digitsVal t)] := by
      intro t ht h
      simp only [allNum] at h
      simp [tokKey, splitSegments_homog ht.ne (Or.inl h), toComp, h]
    have hw : ∀ t, GoodTok t → allAlpha t = true → tokKey t = [.word t] := by
      intro t ht h
      have h1 := allAlpha_nondigit h
      have h2 : ¬ t.all isDigit = true := by
        intro h'; exact ht.ne (allAlpha_allNum_nil h h')
      simp only [tokKey, splitSegments_homog ht.ne (Or.inr h1), List.map_cons, List.map_nil, toComp, if_neg h2]
    split
    · rename_i h; simp only [Bool.and_eq_true] at h
      rw [hw a ha h.1, hn b hb h.2]; rfl
    split
    · rename_i h; simp only [Bool.and_eq_true] at h
      rw [hn a ha h.1, hw b hb h.2]; rfl
    split
    · rename_i h; simp only [Bool.and_eq_true] at h
      rw [hw a ha h.1, hw b hb h.2]
      simp [cmpKey, List.compareLex_cons_cons, cmpComp]
    · exact hseg
  unfold cmpToken
  split
  · rename_i n1 n2 h1 h2
    obtain ⟨hne1, hd1, rfl⟩ := parseI64_good ha.tok h1
    obtain ⟨hne2, hd2, rfl⟩ := parseI64_good hb.tok h2
    rw [compare_int_nat]
    simp [tokKey, splitSegments_homog hne1 (Or.inl hd1), splitSegments_homog hne2 (Or.inl hd2), toComp, hd1, hd2,
      cmpKey, List.compareLex_cons_cons, cmpComp]
  · exact hrest

/-! ### Token lists -/

/-- lexicographic comparison in which the end of the list is greater than any element -/
def lexEndTop {α : Type} (f : α → α → Ordering) : List α → List α → Ordering
  | [], [] => .eq
  | [], _ :: _ => .gt
  | _ :: _, [] => .lt
  | a :: as, b :: bs => (f a b).then (lexEndTop f as bs)

theorem then_isLE {o p : Ordering} : (o.then p).isLE = true ↔ o = .lt ∨ (o = .eq ∧ p.isLE = true) := by
  cases o <;> simp

instance lexEndTopTrans {α : Type} (f : α → α → Ordering) [TransCmp f] : TransCmp (lexEndTop f) where
  eq_swap := by
    intro a b
    induction a generalizing b with
    | nil => cases b <;> rfl
    | cons x xs ih =>
      cases b with
      | nil => rfl
      | cons y ys =>
        simp only [lexEndTop, swap_then, ← ih]
        rw [OrientedCmp.eq_swap (cmp := f) (a := x)]
  isLE_trans := by
    intro a b c
    induction a generalizing b c with
    | nil => cases b <;> cases c <;> simp [lexEndTop]
    | cons x xs ih =>
      cases b with
      | nil => cases c <;> simp [lexEndTop]
      | cons y ys =>
        cases c with
        | nil => simp [lexEndTop]
        | cons z zs =>
          simp only [lexEndTop, then_isLE]
          rintro (h1 | ⟨h1, h1'⟩) (h2 | ⟨h2, h2'⟩)
          · exact Or.inl (TransCmp.lt_trans h1 h2)
          · exact Or.inl (TransCmp.lt_of_lt_of_eq h1 h2)
          · exact Or.inl (TransCmp.lt_of_eq_of_lt h1 h2)
          · exact Or.inr ⟨TransCmp.eq_trans h1 h2, ih h1' h2'⟩

theorem cmpTokens_sameLen {a b : List Str} (ha : ∀ t ∈ a, GoodTok t) (hb : ∀ t ∈ b, GoodTok t)
    (hl : a.length = b.length) :
    cmpTokens a b = lexEndTop cmpKey (a.map tokKey) (b.map tokKey) := by
  induction a generalizing b with
  | nil => cases b <;> simp_all [cmpTokens, lexEndTop]
  | cons x xs ih =>
    cases b with
    | nil => simp at hl
    | cons y ys =>
      simp only [cmpTokens, List.map_cons, lexEndTop]
      rw [cmpToken_key (ha x (by simp)) (hb y (by simp)),
        ih (fun s h => ha s (by simp [h])) (fun s h => hb s (by simp [h])) (by simpa using hl)]

theorem getLast_tail_ne {x z : Str} {xs : List Str} (h : (x :: xs).getLast? ≠ some z) : xs.getLast? ≠ some z := by
  cases xs with
  | nil => simp
  | cons y ys => simpa [List.getLast?_cons_cons] using h

theorem all_zero_getLast {x z : Str} {xs : List Str} (h : (x :: xs).all (fun t => t == z) = true) :
    (x :: xs).getLast? = some z := by
  have hm : (x :: xs).getLast (by simp) ∈ (x :: xs) := List.getLast_mem _
  rw [List.all_eq_true] at h
  have := h _ hm
  rw [List.getLast?_eq_some_getLast (by simp)]
  simpa using this

theorem cmpTokens_noTrail {a b : List Str} (ha : ∀ t ∈ a, GoodTok t) (hb : ∀ t ∈ b, GoodTok t)
    (hza : a.getLast? ≠ some c!"0") (hzb : b.getLast? ≠ some c!"0") :
    cmpTokens a b = lexEndTop cmpKey (a.map tokKey) (b.map tokKey) := by
  induction a generalizing b with
  | nil =>
    cases b with
    | nil => rfl
    | cons y ys =>
      simp only [cmpTokens, List.map_cons, List.map_nil, lexEndTop]
      rw [if_neg]
      intro h; exact hzb (all_zero_getLast h)
  | cons x xs ih =>
    cases b with
    | nil =>
      simp only [cmpTokens, List.map_cons, List.map_nil, lexEndTop]
      rw [if_neg]
      intro h; exact hza (all_zero_getLast h)
    | cons y ys =>
      simp only [cmpTokens, List.map_cons, lexEndTop]
      rw [cmpToken_key (ha x (by simp)) (hb y (by simp)),
        ih (fun s h => ha s (by simp [h])) (fun s h => hb s (by simp [h]))
          (getLast_tail_ne hza) (getLast_tail_ne hzb)]

end Rez
