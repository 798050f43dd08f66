import Verif.Lemmas.VersionParse
/-! More lemmas: decimal numerals, token equality, prefixes, prerelease markers. -/
namespace Rez
open Spec Std

attribute [local simp] List.compareLex_nil_nil List.compareLex_nil_cons List.compareLex_cons_nil
  List.compareLex_cons_cons

/-! ### containsStr -/

theorem containsStr_iff (s p : Str) : containsStr s p = true ↔ p <:+: s := by
  induction s with
  | nil => simp [containsStr]
  | cons c cs ih =>
    simp only [containsStr, Bool.or_eq_true, ih, List.isPrefixOf_iff_prefix, List.infix_cons_iff]

/-! ### decimal numerals -/

theorem digitChar_toNat {d : Nat} (h : d < 10) : (Char.ofNat (48 + d)).toNat = 48 + d := by
  have : d = 0 ∨ d = 1 ∨ d = 2 ∨ d = 3 ∨ d = 4 ∨ d = 5 ∨ d = 6 ∨ d = 7 ∨ d = 8 ∨ d = 9 := by omega
  rcases this with h | h | h | h | h | h | h | h | h | h <;> subst h <;> decide

theorem digitChar_isDigit {d : Nat} (h : d < 10) : isDigit (Char.ofNat (48 + d)) = true := by
  simp only [isDigit, digitChar_toNat h, Bool.and_eq_true, decide_eq_true_eq]; omega

theorem digitsVal_append_one (l : Str) (c : Char) : digitsVal (l ++ [c]) = 10 * digitsVal l + (c.toNat - 48) := by
  simp [digitsVal]

theorem decimalAux_spec (f n : Nat) (h : n < f) :
    decimalAux f n ≠ [] ∧ (decimalAux f n).all isDigit = true ∧ digitsVal (decimalAux f n) = n := by
  induction f generalizing n with
  | zero => omega
  | succ f ih =>
    unfold decimalAux
    split
    · rename_i h10
      refine ⟨by simp, by simp [digitChar_isDigit h10], ?_⟩
      simp [digitsVal, digitChar_toNat h10]
    · have hm : n % 10 < 10 := by omega
      obtain ⟨h1, h2, h3⟩ := ih (n / 10) (by omega)
      refine ⟨by simp, by simp [h2, digitChar_isDigit hm], ?_⟩
      rw [digitsVal_append_one, h3, digitChar_toNat hm]; omega

theorem decimal_ne (n : Nat) : decimal n ≠ [] := (decimalAux_spec _ n (by omega)).1
theorem decimal_digits (n : Nat) : (decimal n).all isDigit = true := (decimalAux_spec _ n (by omega)).2.1
theorem decimal_val (n : Nat) : digitsVal (decimal n) = n := (decimalAux_spec _ n (by omega)).2.2

theorem digitsVal_pos {c : Char} {l : Str} (hc : isDigit c = true) (h0 : c ≠ '0') : 0 < digitsVal (c :: l) := by
  have hc' : 0 < c.toNat - 48 := by
    simp only [isDigit, Bool.and_eq_true, decide_eq_true_eq] at hc
    have : c.toNat ≠ 48 := by
      intro h; apply h0; apply char_toNat_inj; rw [h]; rfl
    omega
  unfold digitsVal
  simp only [List.foldl_cons, Nat.mul_zero, Nat.zero_add]
  have : ∀ (l : Str) (a : Nat), 0 < a → 0 < l.foldl (fun a c => 10 * a + (c.toNat - 48)) a := by
    intro l
    induction l with
    | nil => intro a h; simpa using h
    | cons d ds ih => intro a h; exact ih (10 * a + (d.toNat - 48)) (by omega)
  exact this _ _ hc'

/-- digit strings without a redundant leading zero -/
def Canon (l : Str) : Prop := l.all isDigit = true ∧ l ≠ [] ∧ ∀ d q, l = '0' :: d :: q → False

theorem canon_init {l : Str} {c : Char} (h : Canon (l ++ [c])) (hl : l ≠ []) : Canon l ∧ 0 < digitsVal l := by
  obtain ⟨h1, _, h3⟩ := h
  obtain ⟨x, xs, rfl⟩ := List.exists_cons_of_ne_nil hl
  have hx : x ≠ '0' := by
    rintro rfl
    cases xs with
    | nil => exact h3 c [] (by simp)
    | cons y ys => exact h3 y (ys ++ [c]) (by simp)
  simp only [List.cons_append, List.all_cons, List.all_append, Bool.and_eq_true] at h1
  refine ⟨⟨by simp [h1.1, h1.2.1], by simp, ?_⟩, digitsVal_pos h1.1 hx⟩
  intro d q hq
  simp only [List.cons.injEq] at hq
  exact hx hq.1

theorem digit_val_inj {x y : Char} (hx : isDigit x = true) (hy : isDigit y = true)
    (h : x.toNat - 48 = y.toNat - 48) : x = y := by
  simp only [isDigit, Bool.and_eq_true, decide_eq_true_eq] at hx hy
  apply char_toNat_inj; omega

theorem isDigit_val_lt {x : Char} (hx : isDigit x = true) : x.toNat - 48 < 10 := by
  simp only [isDigit, Bool.and_eq_true, decide_eq_true_eq] at hx; omega

theorem eq_append_last {l : Str} (h : l ≠ []) : ∃ l' c, l = l' ++ [c] :=
  ⟨l.dropLast, l.getLast h, (List.dropLast_concat_getLast h).symm⟩

theorem digitsVal_inj (k : Nat) : ∀ a b : Str, a.length ≤ k → Canon a → Canon b → digitsVal a = digitsVal b → a = b := by
  induction k with
  | zero =>
    intro a b hk ha; exact absurd (List.length_eq_zero_iff.mp (by omega)) ha.2.1
  | succ k ih =>
    intro a b hk ha hb hv
    obtain ⟨a', x, rfl⟩ := eq_append_last ha.2.1
    obtain ⟨b', y, rfl⟩ := eq_append_last hb.2.1
    have hx : isDigit x = true := by have := ha.1; simp at this; exact this.2
    have hy : isDigit y = true := by have := hb.1; simp at this; exact this.2
    rw [digitsVal_append_one, digitsVal_append_one] at hv
    have h1 := isDigit_val_lt hx
    have h2 := isDigit_val_lt hy
    have hxy : x = y := digit_val_inj hx hy (by omega)
    have hab : digitsVal a' = digitsVal b' := by subst hxy; omega
    subst hxy
    congr 1
    by_cases ha' : a' = []
    · by_cases hb' : b' = []
      · rw [ha', hb']
      · have := (canon_init hb hb').2
        rw [ha'] at hab; simp [digitsVal] at hab this; omega
    · by_cases hb' : b' = []
      · have := (canon_init ha ha').2
        rw [hb'] at hab; simp [digitsVal] at hab this; omega
      · exact ih a' b' (by simp at hk; omega) (canon_init ha ha').1 (canon_init hb hb').1 hab

/-! ### segments alternate -/

/-- the first character of the list of segments -/
def headDigit (l : List Str) : Option Bool := l.head?.bind fun s => s.head?.map isDigit

theorem splitSegments_headDigit (c : Char) (cs : Str) : headDigit (splitSegments (c :: cs)) = some (isDigit c) := by
  unfold splitSegments
  split
  · split <;> simp [headDigit]
  · simp [headDigit]

theorem seg_prev_not_digit {t : Str} {l1 l2 : List Str} {s : Str} (h : splitSegments t = l1 ++ s :: l2)
    (hs : s.all isDigit = true) : ∀ e, l1.flatten.getLast? = some e → isDigit e = false := by
  induction t generalizing l1 with
  | nil => simp [splitSegments] at h
  | cons c cs ih =>
    obtain ⟨hf, hsp⟩ := splitSegments_spec cs
    rw [splitSegments] at h
    intro e he
    split at h
    · rename_i d ds rest heq
      split at h
      · rename_i hcd
        cases l1 with
        | nil => simp at he
        | cons x xs =>
          simp only [List.cons_append, List.cons.injEq] at h
          obtain ⟨rfl, h⟩ := h
          have h' : splitSegments cs = ((d :: ds) :: xs) ++ s :: l2 := by rw [heq, h]; rfl
          apply ih h' e
          simpa [List.getLast?_cons_cons] using he
      · rename_i hcd
        cases l1 with
        | nil => simp at he
        | cons x xs =>
          simp only [List.cons_append, List.cons.injEq] at h
          obtain ⟨rfl, h⟩ := h
          have h' : splitSegments cs = xs ++ s :: l2 := by rw [heq, h]
          by_cases hx : xs.flatten = []
          · simp only [List.flatten_cons, hx, List.append_nil, List.getLast?_singleton, Option.some.injEq] at he
            subst he
            have hxs : xs = [] := by
              cases xs with
              | nil => rfl
              | cons z zs =>
                have := (hsp z (by rw [h']; simp)).1
                simp at hx; exact absurd hx.1 this
            subst hxs
            have hh : splitSegments cs = s :: l2 := h'
            rw [heq] at hh
            simp only [List.cons.injEq] at hh
            obtain ⟨rfl, _⟩ := hh
            simp only [List.all_cons, Bool.and_eq_true] at hs
            simp only [hs.1, beq_iff_eq, Bool.not_eq_true] at hcd
            exact hcd
          · apply ih h' e
            simp only [List.flatten_cons, List.getLast?_append] at he
            rw [List.getLast?_eq_some_getLast hx] at he ⊢
            simpa using he
    · rename_i rest hrest
      cases l1 with
      | nil => simp at he
      | cons x xs =>
        simp only [List.cons_append, List.cons.injEq] at h
        obtain ⟨rfl, h⟩ := h
        exfalso
        cases hc : splitSegments cs with
        | nil => rw [hc] at h; simp at h
        | cons z zs =>
          have hz := (hsp z (by rw [hc]; simp)).1
          obtain ⟨w, ws, rfl⟩ := List.exists_cons_of_ne_nil hz
          exact hrest w ws zs hc

theorem canon_of_noLeadingZero {t : Str} (h : NoLeadingZero t) {s : Str} (hs : s ∈ splitSegments t)
    (hd : s.all isDigit = true) : Canon s := by
  refine ⟨hd, ((splitSegments_spec t).2 s hs).1, ?_⟩
  rintro d q rfl
  obtain ⟨l1, l2, hl⟩ := List.append_of_mem hs
  have hf := (splitSegments_spec t).1
  rw [hl] at hf
  have hd' : isDigit d = true := by simp only [List.all_cons, Bool.and_eq_true] at hd; exact hd.2.1
  obtain ⟨e, he, hed⟩ := h l1.flatten d (q ++ l2.flatten) (by rw [← hf]; simp) hd'
  have := seg_prev_not_digit hl hd e he
  rw [this] at hed; simp at hed

/-! ### token equality for all sizes -/

/-- a segment as a value, the way the code classifies it -/
def toComp' (s : Str) : Comp := match parseU64 s with | some n => .num n | none => .word s
/-- the key of a token, the way the code classifies segments -/
def tokKey' (t : Str) : List Comp := (splitSegments t).map toComp'

theorem cmpSegment_key' (a b : Str) : cmpSegment a b = cmpComp (toComp' a) (toComp' b) := by
  unfold cmpSegment toComp'
  cases parseU64 a <;> cases parseU64 b <;> rfl

theorem cmpSegments_key' (a b : List Str) : cmpSegments a b = cmpKey (a.map toComp') (b.map toComp') := by
  induction a generalizing b with
  | nil => cases b <;> simp [cmpSegments, cmpKey]
  | cons x xs ih =>
    cases b with
    | nil => simp [cmpSegments, cmpKey]
    | cons y ys =>
      simp only [cmpSegments, cmpKey, List.map_cons, List.compareLex_cons_cons, cmpSegment_key', ih]

theorem cmpComp_eq_iff (a b : Comp) : cmpComp a b = .eq ↔ a = b := by
  cases a <;> cases b <;> simp [cmpComp, cmpStr_eq_iff]

theorem cmpKey_eq_iff (a b : List Comp) : cmpKey a b = .eq ↔ a = b := by
  induction a generalizing b with
  | nil => cases b <;> simp [cmpKey]
  | cons x xs ih =>
    cases b with
    | nil => simp [cmpKey]
    | cons y ys =>
      have := ih ys
      simp only [cmpKey] at this
      simp [cmpKey, cmpComp_eq_iff, this]

theorem parseI64_lt {t : Str} (h : t.all isTok = true) {n : Int} (hp : parseI64 t = some n) :
    digitsVal t < 2 ^ 63 := by
  unfold parseI64 at hp
  split at hp
  · simp [isTok, isAlpha, isDigit] at h
  · simp [isTok, isAlpha, isDigit] at h
  · split at hp
    · rename_i hc
      simp only [Bool.and_eq_true, Bool.not_eq_true', decide_eq_true_eq] at hc
      exact hc.2
    · simp at hp

theorem digits_val_eq_nonempty {t : Str} (hne : t ≠ []) (h : t.all isDigit = true) (hlt : digitsVal t < 2 ^ 64) :
    tokKey' t = [.num (digitsVal t)] := by
  simp [tokKey', splitSegments_homog hne (Or.inl h), toComp', parseU64_digits hne h hlt]

theorem cmpToken_eq_iff {a b : Str} (ha : a ≠ []) (hb : b ≠ []) (hta : a.all isTok = true) (htb : b.all isTok = true) :
    cmpToken a b = .eq ↔ tokKey' a = tokKey' b := by
  unfold cmpToken
  split
  · rename_i n1 n2 h1 h2
    obtain ⟨hne1, hd1, rfl⟩ := parseI64_good hta h1
    obtain ⟨hne2, hd2, rfl⟩ := parseI64_good htb h2
    have hl1 := parseI64_lt hta h1
    have hl2 := parseI64_lt htb h2
    rw [compare_int_nat, digits_val_eq_nonempty hne1 hd1 (by omega), digits_val_eq_nonempty hne2 hd2 (by omega)]
    simp
  · by_cases hab : a = b
    · subst hab; simp
    have hw : ∀ t, t ≠ [] → allAlpha t = true → tokKey' t = [.word t] := by
      intro t ht h
      have h1 := allAlpha_nondigit h
      simp [tokKey', splitSegments_homog ht (Or.inr h1), toComp', parseU64_nondigits h1]
    simp only [beq_iff_eq, hab, if_false]
    have hN : ∀ t, t ≠ [] → allNum t = true → (∃ n, tokKey' t = [.num n]) ∨ (tokKey' t = [.word t]) := by
      intro t ht h
      have h' : t.all isDigit = true := h
      simp only [tokKey', splitSegments_homog ht (Or.inl h'), List.map_cons, List.map_nil, toComp']
      cases parseU64 t with
      | some n => exact Or.inl ⟨n, rfl⟩
      | none => exact Or.inr rfl
    split
    · rename_i h; simp only [Bool.and_eq_true] at h
      rw [hw a ha h.1]
      rcases hN b hb h.2 with ⟨n, hn⟩ | hn <;> rw [hn] <;> simp [hab]
    split
    · rename_i h; simp only [Bool.and_eq_true] at h
      rw [hw b hb h.2]
      rcases hN a ha h.1 with ⟨n, hn⟩ | hn <;> rw [hn] <;> simp [hab]
    split
    · rename_i h; simp only [Bool.and_eq_true] at h
      rw [hw a ha h.1, hw b hb h.2]
      simp [cmpStr_eq_iff, hab]
    · rw [cmpSegments_key', cmpKey_eq_iff]; rfl

/-! ### parsed versions -/

theorem parsed_tokens {s : Str} {v : Version} (h : Version.parse s = some v) :
    ∀ t ∈ v.tokens, t ≠ [] ∧ t.all isTok = true := by
  intro t ht
  rcases Version.parse_cases h with ⟨rfl, _⟩ | ⟨rfl, _⟩ | ⟨hs, _⟩
  · simp [Version.empty] at ht
  · simp [Version.inf] at ht
  · exact ⟨(hs.tokens t ht).nonempty,
      List.all_eq_true.mpr fun c hc => (isTok_iff c).mpr ((hs.tokens t ht).chars c hc)⟩

theorem parsed_kind {s : Str} {v : Version} (h : Version.parse s = some v) :
    (v = Version.empty) ∨ (v = Version.inf) ∨ (v.isInf = false ∧ v.isEmpty = false ∧ v.tokens ≠ []) := by
  rcases Version.parse_cases h with ⟨rfl, _⟩ | ⟨rfl, _⟩ | ⟨hs, hr, h1, h2, _⟩
  · exact Or.inl rfl
  · exact Or.inr (Or.inl rfl)
  · refine Or.inr (Or.inr ⟨?_, ?_, ?_⟩)
    · simp [Version.isInf, hr, h2]
    · simp [Version.isEmpty, hr, h1]
    · intro h; have := hs.oneSepBetween; rw [h] at this; simp at this

theorem smallRuns_of {t : Str} (h : DigitRunsBelow (2 ^ 64) t) : SmallRuns t :=
  fun d hd hda => h d hd (List.all_eq_true.mp hda)

theorem goodTok_of {s : Str} {v : Version} (h : Version.parse s = some v)
    (hs : ∀ t ∈ v.tokens, DigitRunsBelow (2 ^ 64) t) : ∀ t ∈ v.tokens, GoodTok t := by
  intro t ht
  have := parsed_tokens h t ht
  exact ⟨this.1, this.2, smallRuns_of (hs t ht)⟩

end Rez
