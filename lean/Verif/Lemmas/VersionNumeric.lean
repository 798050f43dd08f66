import Verif.Lemmas.VersionExtra
/-! Lemmas behind the numeric, hashing and prefix properties of versions. -/
namespace Rez
open Spec Std

/-! ### dotted numerals parse -/

theorem joinWith_interleave (ts : List Str) (h : ts ≠ []) :
    joinWith c!"." ts = interleave ts (List.replicate (ts.length - 1) c!".") := by
  induction ts with
  | nil => exact absurd rfl h
  | cons t ts ih =>
    cases ts with
    | nil => rfl
    | cons u us =>
      have := ih (by simp)
      simp only [List.length_cons, Nat.add_sub_cancel] at this
      simp only [joinWith, this, List.length_cons, Nat.add_sub_cancel, List.replicate_succ, interleave]

theorem digit_not_alpha {c : Char} (h : isDigit c = true) : isAlpha c = false ∧ c ≠ '_' ∧ c ≠ 'v' ∧ c ≠ 'V' ∧ isWs c = false := by
  simp only [isDigit, Bool.and_eq_true, decide_eq_true_eq] at h
  refine ⟨?_, ?_, ?_, ?_, ?_⟩
  · simp only [isAlpha, Bool.or_eq_false_iff, Bool.and_eq_false_iff, decide_eq_false_iff_not]; omega
  · rintro rfl; revert h; decide
  · rintro rfl; revert h; decide
  · rintro rfl; revert h; decide
  · simp only [isWs, Bool.or_eq_false_iff, Bool.and_eq_false_iff, decide_eq_false_iff_not, beq_eq_false_iff_ne]
    omega

theorem digits_wf {t : Str} (hne : t ≠ []) (hd : t.all isDigit = true) : TokenWf t := by
  have hd' := List.all_eq_true.mp hd
  obtain ⟨c, cs, rfl⟩ := List.exists_cons_of_ne_nil hne
  have hc := digit_not_alpha (hd' c (by simp))
  refine ⟨hne, fun c hc => Or.inr (Or.inl (hd' c hc)), ?_, ?_, ?_, ?_, ?_⟩
  · simp [hc.2.1]
  · intro h
    exact (digit_not_alpha (hd' _ (List.mem_of_getLast? h))).2.1 rfl
  · intro h; have := h c (by simp); rw [hc.1] at this; simp at this
  · rintro h; have := hd' 'n' (by rw [h]; simp); revert this; decide
  · rintro h; have := hd' 'v' (by rw [h]; simp); revert this; decide

theorem interleave_head_eq {t : Str} {ts seps : List Str} (h : t ≠ []) :
    (interleave (t :: ts) seps).head? = t.head? := by
  obtain ⟨x, xs, rfl⟩ := List.exists_cons_of_ne_nil h
  cases ts <;> cases seps <;> simp [interleave]

theorem spells_dotted {ns : List Nat} (h1 : ns ≠ []) (h5 : ns.length ≤ 5) :
    Spells (dotted ns) (ns.map decimal) (List.replicate (ns.length - 1) c!".") := by
  have hne : ns.map decimal ≠ [] := by simpa using h1
  have hlen : ns.length ≠ 0 := by simpa using h1
  refine ⟨?_, ?_, ?_, ?_, ?_, ?_, ?_⟩
  · have := joinWith_interleave _ hne
    simpa [dotted] using this
  · simp; omega
  · simp; omega
  · have := List.length_filter_le (fun t : Str => t.all isDigit) (ns.map decimal)
    simp at this ⊢; omega
  · intro p hp; left; exact (List.mem_replicate.mp hp).2
  · intro t ht
    obtain ⟨n, _, rfl⟩ := List.mem_map.mp ht
    exact digits_wf (decimal_ne n) (decimal_digits n)
  · obtain ⟨n, ns', rfl⟩ := List.exists_cons_of_ne_nil h1
    have hh : (dotted (n :: ns')).head? = (decimal n).head? := by
      rw [dotted, joinWith_interleave _ hne, List.map_cons, interleave_head_eq (decimal_ne n)]
    rw [hh]
    obtain ⟨c, cs, hc⟩ := List.exists_cons_of_ne_nil (decimal_ne n)
    have := List.all_eq_true.mp (decimal_digits n) c (by rw [hc]; simp)
    rw [hc]
    have := digit_not_alpha this
    simp [this.2.2.1, this.2.2.2.1]

theorem isTok_not_ws {c : Char} (h : isTok c = true) : isWs c = false := by
  rcases (isTok_iff c).mp h with h | h | h
  · simp only [isAlpha, Bool.or_eq_true, Bool.and_eq_true, decide_eq_true_eq] at h
    simp only [isWs, Bool.or_eq_false_iff, Bool.and_eq_false_iff, decide_eq_false_iff_not, beq_eq_false_iff_ne]
    omega
  · exact (digit_not_alpha h).2.2.2.2
  · subst h; decide

theorem spells_trimmed {s : Str} {ts seps : List Str} (h : Spells s ts seps) : Trimmed s := by
  have ht : ∀ t ∈ ts, t ≠ [] ∧ t.all isTok = true := fun t htm =>
    ⟨(h.tokens t htm).nonempty, List.all_eq_true.mpr fun c hc => (isTok_iff c).mpr ((h.tokens t htm).chars c hc)⟩
  rw [h.spelling]
  exact ⟨fun c hc => isTok_not_ws (head_interleave ht c hc), fun c hc => isTok_not_ws (last_interleave ht c hc)⟩

theorem parse_dotted {ns : List Nat} (h1 : ns ≠ []) (h5 : ns.length ≤ 5) :
    Version.parse (dotted ns) =
      some ⟨ns.map decimal, List.replicate (ns.length - 1) c!".", dotted ns⟩ := by
  have hs := spells_dotted h1 h5
  have ht := trim_of_trimmed (spells_trimmed hs)
  have hhead : ∀ c, (dotted ns).head? = some c → isDigit c = true := by
    intro c hc
    obtain ⟨n, ns', rfl⟩ := List.exists_cons_of_ne_nil h1
    have hh : (dotted (n :: ns')).head? = (decimal n).head? := by
      rw [dotted, joinWith_interleave _ (by simp), List.map_cons, interleave_head_eq (decimal_ne n)]
    rw [hh] at hc
    exact List.all_eq_true.mp (decimal_digits n) c (List.mem_of_head? hc)
  have := Version.parse_of_spells (s := dotted ns) (ts := ns.map decimal) (by rw [ht]; exact hs)
    (by
      rw [ht]; intro h
      have := hhead 'i' (by rw [h]; rfl)
      revert this; decide)
    (by
      rw [ht]; intro h
      have := hhead 'e' (by rw [h]; rfl)
      revert this; decide)
  rw [ht] at this
  exact this

/-! ### numeric comparison -/

theorem infix_digits_le {d t : Str} (h : d <:+: t) (ht : t.all isDigit = true) : digitsVal d ≤ digitsVal t := by
  obtain ⟨p, q, rfl⟩ := h
  have happ : ∀ a b : Str, digitsVal (a ++ b) = b.foldl (fun a c => 10 * a + (c.toNat - 48)) (digitsVal a) := by
    intro a b; simp [digitsVal]
  have hmono : ∀ (l : Str) (a b : Nat), a ≤ b →
      l.foldl (fun a c => 10 * a + (c.toNat - 48)) a ≤ l.foldl (fun a c => 10 * a + (c.toNat - 48)) b := by
    intro l
    induction l with
    | nil => intro a b h; simpa using h
    | cons c cs ih =>
      intro a b h
      exact ih (10 * a + (c.toNat - 48)) (10 * b + (c.toNat - 48)) (by omega)
  have hself : ∀ (l : Str) (a : Nat), a ≤ l.foldl (fun a c => 10 * a + (c.toNat - 48)) a := by
    intro l
    induction l with
    | nil => intro a; simp
    | cons c cs ih => intro a; exact Nat.le_trans (by omega) (ih (10 * a + (c.toNat - 48)))
  calc digitsVal d ≤ d.foldl (fun a c => 10 * a + (c.toNat - 48)) (digitsVal p) := by
        unfold digitsVal; exact hmono _ _ _ (Nat.zero_le _)
    _ = digitsVal (p ++ d) := (happ p d).symm
    _ ≤ digitsVal (p ++ d ++ q) := by rw [happ (p ++ d) q]; exact hself _ _

theorem goodTok_decimal {n : Nat} (h : n < 2 ^ 64) : GoodTok (decimal n) := by
  refine ⟨decimal_ne n, ?_, ?_⟩
  · exact List.all_eq_true.mpr fun c hc => (isTok_iff c).mpr (Or.inr (Or.inl (List.all_eq_true.mp (decimal_digits n) c hc)))
  · intro d hd _
    have := infix_digits_le hd (decimal_digits n)
    rw [decimal_val] at this; omega

theorem tokKey_decimal (n : Nat) : tokKey (decimal n) = [.num n] := by
  simp [tokKey, splitSegments_homog (decimal_ne n) (Or.inl (decimal_digits n)), toComp, decimal_digits, decimal_val]

theorem cmpToken_decimal {a b : Nat} (ha : a < 2 ^ 64) (hb : b < 2 ^ 64) :
    cmpToken (decimal a) (decimal b) = compare a b := by
  rw [cmpToken_key (goodTok_decimal ha) (goodTok_decimal hb), tokKey_decimal, tokKey_decimal]
  simp [cmpKey, List.compareLex_cons_cons, cmpComp, List.compareLex_nil_nil]

theorem compare_nat_ite (a b : Nat) : compare a b = if a < b then .lt else if b < a then .gt else .eq := by
  rcases Nat.lt_trichotomy a b with h | h | h
  · rw [Nat.compare_eq_lt.mpr h]; simp [h]
  · subst h; simp
  · rw [Nat.compare_eq_gt.mpr h, if_neg (by omega), if_pos h]

theorem cmpTokens_decimal {as bs : List Nat} (hl : as.length = bs.length) (ha : ∀ x ∈ as, x < 2 ^ 64)
    (hb : ∀ x ∈ bs, x < 2 ^ 64) : cmpTokens (as.map decimal) (bs.map decimal) = lexNat as bs := by
  induction as generalizing bs with
  | nil => cases bs <;> simp_all [cmpTokens, lexNat]
  | cons x xs ih =>
    cases bs with
    | nil => simp at hl
    | cons y ys =>
      simp only [List.map_cons, cmpTokens, lexNat]
      rw [cmpToken_decimal (ha x (by simp)) (hb y (by simp)),
        ih (by simpa using hl) (fun z hz => ha z (by simp [hz])) (fun z hz => hb z (by simp [hz])), compare_nat_ite]
      split
      · rfl
      split <;> rfl

/-! ### equality of tokens without leading zeros -/

/-- a segment whose numeric reading is canonical -/
def GoodSeg' (s : Str) : Prop := ∀ n, parseU64 s = some n → Canon s ∧ digitsVal s = n

theorem map_toComp'_inj {a b : List Str} (h : a.map toComp' = b.map toComp')
    (ha : ∀ s ∈ a, GoodSeg' s) (hb : ∀ s ∈ b, GoodSeg' s) : a = b := by
  induction a generalizing b with
  | nil => cases b <;> simp_all
  | cons x xs ih =>
    cases b with
    | nil => simp at h
    | cons y ys =>
      simp only [List.map_cons, List.cons.injEq] at h
      rw [ih h.2 (fun s hs => ha s (by simp [hs])) (fun s hs => hb s (by simp [hs]))]
      congr 1
      have hx := ha x (by simp)
      have hy := hb y (by simp)
      have h1 := h.1
      unfold toComp' at h1
      cases px : parseU64 x with
      | none =>
        cases py : parseU64 y with
        | none => rw [px, py] at h1; simpa using h1
        | some m => rw [px, py] at h1; simp at h1
      | some n =>
        cases py : parseU64 y with
        | none => rw [px, py] at h1; simp at h1
        | some m =>
          rw [px, py] at h1
          simp only [Comp.num.injEq] at h1
          have := hx n px
          have h2 := hy m py
          exact digitsVal_inj x.length x y (Nat.le_refl _) this.1 h2.1 (by rw [this.2, h2.2, h1])

theorem cmpToken_eq_of_noLeadingZero {a b : Str} (ha : a ≠ []) (hb : b ≠ []) (hta : a.all isTok = true)
    (htb : b.all isTok = true) (hza : NoLeadingZero a) (hzb : NoLeadingZero b) (h : cmpToken a b = .eq) : a = b := by
  rw [cmpToken_eq_iff ha hb hta htb] at h
  have key : ∀ t : Str, NoLeadingZero t → ∀ s ∈ splitSegments t, GoodSeg' s := by
    intro t hz s hs n hn
    have hsp := (splitSegments_spec t).2 s hs
    rcases hsp.2 with hd | hd
    · refine ⟨canon_of_noLeadingZero hz hs hd, ?_⟩
      have hp : stripPlus s = s := by
        unfold stripPlus
        split
        · simp [isDigit] at hd
        · rfl
      unfold parseU64 at hn
      rw [hp] at hn
      dsimp only at hn
      split at hn
      · simpa using hn
      · simp at hn
    · rw [parseU64_nondigits hd] at hn; simp at hn
  have := map_toComp'_inj h (key a hza) (key b hzb)
  rw [← (splitSegments_spec a).1, ← (splitSegments_spec b).1, this]

theorem cmpTokens_eq_pairs {as bs : List Str} (hl : as.length = bs.length) (h : cmpTokens as bs = .eq) :
    ∀ p ∈ as.zip bs, cmpToken p.1 p.2 = .eq := by
  induction as generalizing bs with
  | nil => simp
  | cons x xs ih =>
    cases bs with
    | nil => simp
    | cons y ys =>
      simp only [cmpTokens, Ordering.then_eq_eq] at h
      intro p hp
      simp only [List.zip_cons_cons, List.mem_cons] at hp
      rcases hp with rfl | hp
      · exact h.1
      · exact ih (by simpa using hl) h.2 p hp

theorem lists_eq_of_zip {as bs : List Str} (hl : as.length = bs.length) (h : ∀ p ∈ as.zip bs, p.1 = p.2) : as = bs := by
  induction as generalizing bs with
  | nil => cases bs <;> simp_all
  | cons x xs ih =>
    cases bs with
    | nil => simp at hl
    | cons y ys =>
      have h1 := h (x, y) (by simp)
      simp only at h1
      rw [h1, ih (by simpa using hl) (fun p hp => h p (by simp [hp]))]

/-! ### prefixes -/

theorem hasPrefix_iff (v p : Version) :
    v.hasPrefix p = true ↔
      p.tokens.length ≤ v.tokens.length ∧
      ∀ i (h1 : i < p.tokens.length) (h2 : i < v.tokens.length), cmpToken v.tokens[i] p.tokens[i] = .eq := by
  simp only [Version.hasPrefix, Bool.and_eq_true, decide_eq_true_eq, ge_iff_le, List.all_eq_true, beq_iff_eq]
  constructor
  · rintro ⟨h1, h2⟩
    refine ⟨h1, fun i hi hv => ?_⟩
    have := h2 (v.tokens[i], p.tokens[i]) (by
      rw [List.mem_iff_getElem]
      exact ⟨i, by simp; omega, by simp⟩)
    exact this
  · rintro ⟨h1, h2⟩
    refine ⟨h1, ?_⟩
    intro q hq
    obtain ⟨i, hi, rfl⟩ := List.mem_iff_getElem.mp hq
    simp only [List.length_zip] at hi
    simp only [List.getElem_zip]
    exact h2 i (by omega) (by omega)

/-! ### transitivity with the special versions -/

theorem isLE_iff (o : Ordering) : o.isLE = true ↔ o ≠ .gt := by cases o <;> simp

theorem cmp_trans_lift {a b c : Version}
    (h : a.isInf = false → b.isInf = false → c.isInf = false → a.isEmpty = false → b.isEmpty = false → c.isEmpty = false →
      cmpTokens a.tokens b.tokens ≠ .gt → cmpTokens b.tokens c.tokens ≠ .gt → cmpTokens a.tokens c.tokens ≠ .gt) :
    a.cmp b ≠ .gt → b.cmp c ≠ .gt → a.cmp c ≠ .gt := by
  unfold Version.cmp
  cases ha : a.isInf <;> cases hb : b.isInf <;> cases hc : c.isInf <;>
    cases ha' : a.isEmpty <;> cases hb' : b.isEmpty <;> cases hc' : c.isEmpty <;> simp_all

end Rez
