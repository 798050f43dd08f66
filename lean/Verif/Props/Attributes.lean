import Verif.Spec.Attributes
import Verif.Lemmas.Text
import Verif.Lemmas.VersionExtra
import Verif.Props.Search
/-!
# Theorems about package data as text (C212–C214)
-/
namespace Rez.Props
open Rez Rez.Spec.Attributes Rez.Attributes

namespace AttributesLemmas

/-! ### Texts -/

theorem quoted_clean (q : Char) : ∀ (s : Str), (∀ c ∈ s, Clean c) → q ∉ s → '\n' ∉ s → Quoted q s s
  | [], _, _, _ => .done
  | c :: s, h, hq, hn =>
    .char (h c (by simp)) (fun e => hq (by simp [e])) (fun e => hn (by simp [e]))
      (quoted_clean q s (fun x hx => h x (by simp [hx])) (fun hx => hq (by simp [hx])) (fun hx => hn (by simp [hx])))

theorem escape_head : ∀ (s : Str), ¬ c!"'''" <+: '\'' :: s → ¬ c!"''" <+: escapeTriple s
  | [], _ => by simp [escapeTriple]
  | [c], _ => by simp [escapeTriple]
  | c :: d :: s, h => by
    by_cases hc : c = '\''
    · subst hc
      by_cases hd : d = '\''
      · subst hd; exact (h (by simp)).elim
      · have e : escapeTriple ('\'' :: d :: s) = '\'' :: escapeTriple (d :: s) := by
          rw [escapeTriple]
          intro s' _ hs
          exact hd (List.cons.inj hs).1
        have e2 : escapeTriple (d :: s) = d :: escapeTriple s := by
          rw [escapeTriple]
          intro s' hs
          exact (hd hs).elim
        rw [e, e2]
        intro hp
        have := List.cons_prefix_cons.mp hp
        have := List.cons_prefix_cons.mp this.2
        exact hd this.1.symm
    · have e : escapeTriple (c :: d :: s) = c :: escapeTriple (d :: s) := by
        rw [escapeTriple]
        intro s' hs
        exact (hc hs).elim
      rw [e]
      intro hp
      exact hc (List.cons_prefix_cons.mp hp).1.symm

theorem escape_ne {s : Str} (h : s ≠ []) : escapeTriple s ≠ [] := by
  cases s with
  | nil => exact (h rfl).elim
  | cons c s =>
    unfold escapeTriple
    split <;> simp_all

theorem tripled (s : Str) (h : ∀ c ∈ s, Clean c) (hl : s.getLast? ≠ some '\'') : Tripled (escapeTriple s) s := by
  fun_induction escapeTriple s with
  | case1 s ih =>
    refine .escaped (.escaped (.escaped (ih (fun c hc => h c (by simp [hc])) ?_)))
    intro e
    apply hl
    cases s with
    | nil => simp at e
    | cons a b => simpa [List.getLast?_cons_cons] using e
  | case2 c s hne ih =>
    have hlast : s.getLast? ≠ some '\'' := by
      intro e
      apply hl
      cases s with
      | nil => simp at e
      | cons a b => simpa [List.getLast?_cons_cons] using e
    have ht := ih (fun c hc => h c (by simp [hc])) hlast
    by_cases hc : c = '\''
    · subst hc
      refine .quote (escape_ne fun e => hl (by simp [e])) (escape_head s fun hp => ?_) ht
      obtain ⟨r, hr⟩ := hp
      simp only [List.cons_append, List.nil_append, List.cons.injEq, true_and] at hr
      exact hne r rfl hr.symm
    · exact .char (h c (by simp)) hc ht
  | case3 => exact .done

/-! ### The order of keys -/

/-- the keys of the table by their places, all others behind them -/
theorem cmpKey_swap (a b : Str) : (Attributes.cmpKey a b).swap = Attributes.cmpKey b a := by
  unfold Attributes.cmpKey
  cases keyOrder.idxOf? a <;> cases keyOrder.idxOf? b
  · exact (cmpStr_swap a b).symm ▸ rfl
  · rfl
  · rfl
  · exact (Std.OrientedOrd.eq_swap).symm

theorem cmpKey_trans {a b c : Str} (h1 : Attributes.cmpKey a b ≠ .gt) (h2 : Attributes.cmpKey b c ≠ .gt) : Attributes.cmpKey a c ≠ .gt := by
  unfold Attributes.cmpKey at *
  cases ha : keyOrder.idxOf? a <;> cases hb : keyOrder.idxOf? b <;> cases hc : keyOrder.idxOf? c <;>
    simp only [ha, hb, hc] at h1 h2 ⊢
  · have := Std.TransCmp.isLE_trans (cmp := cmpStr) (a := a) (b := b) (c := c)
    exact Ordering.isLE_iff_ne_gt.mp (this (Ordering.isLE_iff_ne_gt.mpr h1) (Ordering.isLE_iff_ne_gt.mpr h2))
  all_goals first
    | exact (h1 rfl).elim
    | exact (h2 rfl).elim
    | (rw [Nat.compare_ne_gt] at *; omega)
    | simp

theorem before_of {a b : Str} (h : Attributes.cmpKey a b ≠ .gt) (hne : a ≠ b) : Before a b := by
  unfold Attributes.cmpKey at h
  rcases ha : keyOrder.idxOf? a with _ | i <;> rcases hb : keyOrder.idxOf? b with _ | j <;> simp only [ha, hb] at h
  · refine .inr (.inr ⟨List.idxOf?_eq_none_iff.mp ha, List.idxOf?_eq_none_iff.mp hb, ?_⟩)
    cases hc : cmpStr a b with
    | lt => rfl
    | eq => exact absurd ((cmpStr_eq_iff a b).mp hc) hne
    | gt => exact absurd hc h
  · exact (h rfl).elim
  · obtain ⟨hi, he, _⟩ := List.idxOf?_eq_some_iff.mp ha
    exact .inr (.inl ⟨he ▸ List.getElem_mem hi, List.idxOf?_eq_none_iff.mp hb⟩)
  · obtain ⟨hi, hei, _⟩ := List.idxOf?_eq_some_iff.mp ha
    obtain ⟨hj, hej, _⟩ := List.idxOf?_eq_some_iff.mp hb
    rw [Nat.compare_ne_gt] at h
    have hij : i ≠ j := fun e => hne (by subst e; exact hei.symm.trans hej)
    have hlt : i < j := by omega
    refine .inl ⟨keyOrder.take i, (keyOrder.take j).drop (i + 1), keyOrder.drop (j + 1), ?_⟩
    have h1 : keyOrder = keyOrder.take j ++ b :: keyOrder.drop (j + 1) := by
      rw [← hej, List.getElem_cons_drop, List.take_append_drop]
    have h2 : keyOrder.take j = keyOrder.take i ++ a :: (keyOrder.take j).drop (i + 1) := by
      have hi' : i < (keyOrder.take j).length := by rw [List.length_take]; omega
      have hg : (keyOrder.take j)[i] = a := by rw [List.getElem_take]; exact hei
      have ht : (keyOrder.take j).take i = keyOrder.take i := by rw [List.take_take, Nat.min_eq_left (Nat.le_of_lt hlt)]
      rw [← ht, ← hg, List.getElem_cons_drop, List.take_append_drop]
    calc keyOrder = keyOrder.take j ++ b :: keyOrder.drop (j + 1) := h1
      _ = (keyOrder.take i ++ a :: (keyOrder.take j).drop (i + 1)) ++ b :: keyOrder.drop (j + 1) := by rw [← h2]
      _ = _ := by simp

theorem sorted_by_key {β : Type} (l : List (Str × β)) :
    (l.insertionSort fun a b => Attributes.cmpKey a.1 b.1 ≠ .gt).Perm l ∧
    ((mkeys l).Nodup → ((l.insertionSort fun a b => Attributes.cmpKey a.1 b.1 ≠ .gt).map Prod.fst).Pairwise Before) := by
  refine ⟨List.perm_insertionSort _ _, fun hn => ?_⟩
  have : Std.Total fun a b : Str × β => Attributes.cmpKey a.1 b.1 ≠ .gt := ⟨fun a b => by
    have := cmpKey_swap a.1 b.1
    cases h : Attributes.cmpKey a.1 b.1 <;> rw [h] at this <;> simp_all [Ordering.swap] <;> rw [← this] <;> simp⟩
  have : IsTrans (Str × β) fun a b => Attributes.cmpKey a.1 b.1 ≠ .gt := ⟨fun a b c h1 h2 => cmpKey_trans h1 h2⟩
  have hs := List.pairwise_insertionSort (fun a b : Str × β => Attributes.cmpKey a.1 b.1 ≠ .gt) l
  have hnd : ((l.insertionSort fun a b => Attributes.cmpKey a.1 b.1 ≠ .gt).map Prod.fst).Nodup :=
    ((List.perm_insertionSort _ l).map Prod.fst).nodup_iff.mpr hn
  rw [List.Nodup, List.pairwise_map] at hnd
  rw [List.pairwise_map]
  exact (hs.and hnd).imp fun h => before_of h.1 h.2

/-! ### Values -/

theorem blank_spaces (n : Nat) : Blank (spaces n) := fun c hc => .inl (List.eq_of_mem_replicate hc)

theorem blank_append {a b : Str} (ha : Blank a) (hb : Blank b) : Blank (a ++ b) := fun c hc =>
  (List.mem_append.mp hc).elim (ha c) (hb c)

theorem items_blank {a s : Str} {l : List PVal} (ha : Blank a) (h : Items s l) : Items (a ++ s) l := by
  cases h with
  | none hb => exact .none (blank_append ha hb)
  | last h1 h2 h3 =>
    have := Items.last (blank_append ha h1) h2 h3
    simpa using this
  | more h1 h2 h3 =>
    have := Items.more (blank_append ha h1) h2 h3
    simpa using this

theorem items_end {s b : Str} {l : List PVal} (h : Items s l) (hb : Blank b) : Items (s ++ b) l := by
  match s, l, h with
  | _, _, .none h => exact .none (blank_append h hb)
  | _, _, .last (a := a) (s := s) (b := b') h1 h2 h3 =>
    have := Items.last h1 h2 (blank_append h3 hb)
    simpa using this
  | _, _, .more (a := a) (s := s) (rest := rest) h1 h2 h3 =>
    have := Items.more h1 h2 (items_end h3 hb)
    simpa using this

end AttributesLemmas
open AttributesLemmas

/-! ## C212: package data as Python code -/

/-- A text is written as a Python string that stands for it: between single quotes, double quotes, or three single quotes. -/
theorem C212_string (s : Str) (hs : Writable s) : Expr (pyString s) (.str s) := by
  unfold pyString
  by_cases hn : '\n' ∈ s
  · rw [if_pos (List.contains_iff_mem.mpr hn)]
    exact .triple (tripled s hs.1 (hs.2 (.inl hn)))
  · rw [if_neg (by simpa using hn)]
    by_cases hq : '\'' ∈ s
    · by_cases hd : '"' ∈ s
      · rw [if_pos (by simp [hq, hd])]
        exact .triple (tripled s hs.1 (hs.2 (.inr ⟨hq, hd⟩)))
      · rw [if_neg (by simp [hd]), if_pos (by simpa using hq)]
        exact .double (quoted_clean _ s hs.1 hd hn)
    · rw [if_neg (by simp [hq]), if_neg (by simpa using hq)]
      exact .single (quoted_clean _ s hs.1 hq hn)

/-- the hypotheses are met -/
example : Writable c!"it's \"so\"\nand '''so''' it is" := by
  refine ⟨?_, fun _ => by decide⟩
  intro c hc
  have : (c!"it's \"so\"\nand '''so''' it is").all (fun c => c != '\\' && c != '\r' && c != '\x00') = true := by decide
  have := List.all_eq_true.mp this c hc
  simpa [Clean, and_assoc] using this

mutual

/-- Data without objects, floats and very large numbers is written as a Python expression with its value. -/
theorem C212_value (shown : Nat → Str) (indent : Nat) : ∀ x, Simple x → Expr (code shown indent x) (pval x)
  | .null, _ => by rw [code, pval]; exact .none
  | .bool true, _ => by rw [code, pval]; exact .true
  | .bool false, _ => by rw [code, pval]; exact .false
  | .int (.ofNat n), h => by
    rw [Simple] at h
    rw [code, pval, if_pos h]; exact .nat n
  | .int (.negSucc n), h => by
    rw [Simple] at h
    rw [code, pval, if_pos h]; exact .neg (n + 1)
  | .float _, h => by rw [Simple] at h; exact h.elim
  | .str s, h => by
    rw [Simple] at h
    rw [code, pval]; exact C212_string s h
  | .arr l, h => by
    rw [Simple] at h
    rw [code, pval]
    have hi := items_end (items_blank (a := c!"\n") (fun c hc => .inr (by simpa using hc)) (C212_items shown indent l h)) (blank_spaces indent)
    have := Expr.list hi
    simpa using this
  | .obj _, h => by rw [Simple] at h; exact h.elim

theorem C212_items (shown : Nat → Str) (indent : Nat) : ∀ l, SimpleAll l → Items (codeItems shown indent l) (pvals l)
  | [], _ => by rw [codeItems, pvals]; exact .none (fun c hc => (nomatch hc))
  | [x], h => by
    rw [SimpleAll] at h
    rw [codeItems, pvals, pvals]
    have := Items.last (a := spaces indent ++ c!"    ") (b := c!"\n")
      (blank_append (blank_spaces _) fun c hc => .inl (by simpa using hc)) (C212_value shown (indent + 4) x h.1)
      (fun c hc => .inr (by simpa using hc))
    exact this
  | x :: y :: l, h => by
    rw [SimpleAll] at h
    rw [codeItems, pvals]
    have := Items.more (a := spaces indent ++ c!"    ") (rest := '\n' :: codeItems shown indent (y :: l))
      (blank_append (blank_spaces _) fun c hc => .inl (by simpa using hc)) (C212_value shown (indent + 4) x h.1)
      (items_blank (a := c!"\n") (fun c hc => .inr (by simpa using hc)) (C212_items shown indent (y :: l) h.2))
    simpa using this

end

namespace AttributesLemmas

theorem codeValues_map (shown : Nat → Str) (indent : Nat) (m : List (Str × Datum)) :
    codeValues shown indent m = m.map fun e => (e.1, code shown indent e.2) := by
  induction m with
  | nil => rw [codeValues]; rfl
  | cons e m ih => obtain ⟨k, x⟩ := e; rw [codeValues, ih]; rfl

/-- sorting by key looks at the keys only -/
theorem insert_map {β γ : Type} (f : β → γ) (e : Str × β) (l : List (Str × β)) :
    ((l.orderedInsert (fun a b => Attributes.cmpKey a.1 b.1 ≠ .gt) e).map fun e => (e.1, f e.2)) =
      (l.map fun e => (e.1, f e.2)).orderedInsert (fun a b => Attributes.cmpKey a.1 b.1 ≠ .gt) (e.1, f e.2) := by
  induction l with
  | nil => rfl
  | cons a l ih =>
    simp only [List.orderedInsert_cons, List.map_cons]
    split
    · rfl
    · rw [List.map_cons, ih]

theorem sort_map {β γ : Type} (f : β → γ) (l : List (Str × β)) :
    ((l.insertionSort fun a b => Attributes.cmpKey a.1 b.1 ≠ .gt).map fun e => (e.1, f e.2)) =
      (l.map fun e => (e.1, f e.2)).insertionSort fun a b => Attributes.cmpKey a.1 b.1 ≠ .gt := by
  induction l with
  | nil => rfl
  | cons e l ih => rw [List.insertionSort_cons, insert_map, ih]; rfl

theorem module_lines (shown : Nat → Str) : ∀ (l : List (Str × Datum)), l ≠ [] → (∀ e ∈ l, Name e.1 ∧ Simple e.2) →
    Module (joinWith c!",\n" (l.map fun e => spaces 0 ++ e.1 ++ c!" = " ++ code shown 0 e.2))
      (tupled (l.map fun e => (e.1, pval e.2)))
  | [], h, _ => (h rfl).elim
  | [e], _, h => by
    have := h e (by simp)
    exact Module.last this.1 (C212_value shown 0 e.2 this.2)
  | e :: e' :: l, _, h => by
    have he := h e (by simp)
    have := Module.tuple he.1 (C212_value shown 0 e.2 he.2) (module_lines shown (e' :: l) (by simp) fun x hx => h x (by simp [hx]))
    simpa [joinWith, spaces, tupled] using this

end AttributesLemmas

/-- The code of an object whose keys are names and whose values are simple is a Python file.  It binds the keys in the standard
order, each to its value; but every value except the last is a tuple of one, because of the comma behind it. -/
theorem C212_module (shown : Nat → Str) (m : List (Str × Datum)) (hne : m ≠ []) (hn : (mkeys m).Nodup)
    (h : ∀ e ∈ m, Name e.1 ∧ Simple e.2) :
    ∃ l : List (Str × Datum), l.Perm m ∧ (l.map Prod.fst).Pairwise Before ∧
      Module (attributesCode shown (.obj m)) (tupled (l.map fun e => (e.1, pval e.2))) := by
  obtain ⟨hp, hb⟩ := sorted_by_key m
  refine ⟨_, hp, hb hn, ?_⟩
  unfold attributesCode
  rw [code, attributes, codeValues_map, ← sort_map (code shown 0), List.map_map]
  have := module_lines shown (m.insertionSort fun a b => Attributes.cmpKey a.1 b.1 ≠ .gt)
    (fun e => hne (by have := hp; rw [e] at this; exact this.symm.eq_nil)) fun e he => h e (hp.mem_iff.mp he)
  exact Module.comment (t := c!" -*- coding: utf-8 -*-") (by decide) (Module.comment (t := c!" Rez package definition") (by decide) (Module.blank this))

/-- One attribute alone is bound to its value. -/
theorem C212_one (shown : Nat → Str) (k : Str) (x : Datum) (hk : Name k) (hx : Simple x) :
    Module (attributesCode shown (.obj [(k, x)])) [(k, pval x)] := by
  obtain ⟨l, hp, _, hm⟩ := C212_module shown [(k, x)] (by simp) (by simp [mkeys]) (by
    intro e he
    rw [List.mem_singleton] at he
    subst he
    exact ⟨hk, hx⟩)
  rw [List.perm_singleton.mp hp] at hm
  exact hm

/-- a package with a name, a version and requirements -/
def demoData : List (Str × Datum) :=
  [(c!"requires", .arr [.str c!"python-3", .str c!"it's"]), (c!"version", .str c!"1.0"), (c!"name", .str c!"foo")]

/-- the hypotheses are met -/
theorem demoData_ok : demoData ≠ [] ∧ (mkeys demoData).Nodup ∧ ∀ e ∈ demoData, Name e.1 ∧ Simple e.2 := by
  refine ⟨by simp [demoData], by decide, ?_⟩
  have clean : ∀ s : Str, s.all (fun c => c != '\\' && c != '\r' && c != '\x00') = true → ∀ c ∈ s, Clean c := by
    intro s hs c hc
    have := List.all_eq_true.mp hs c hc
    simpa [Clean, and_assoc] using this
  intro e he
  simp only [demoData, List.mem_cons, List.not_mem_nil, or_false] at he
  rcases he with rfl | rfl | rfl
  · refine ⟨⟨by decide, ⟨_, _, rfl, by decide⟩, by decide⟩, ?_⟩
    simp only [Simple, SimpleAll, and_true]
    exact ⟨⟨clean _ (by decide), fun _ => by decide⟩, ⟨clean _ (by decide), fun _ => by decide⟩⟩
  · refine ⟨⟨by decide, ⟨_, _, rfl, by decide⟩, by decide⟩, ?_⟩
    simp only [Simple]
    exact ⟨clean _ (by decide), fun _ => by decide⟩
  · refine ⟨⟨by decide, ⟨_, _, rfl, by decide⟩, by decide⟩, ?_⟩
    simp only [Simple]
    exact ⟨clean _ (by decide), fun _ => by decide⟩

/-- The name and the version of a package are not texts in the file that is written, but tuples. -/
theorem C212_tuple_false : Module (attributesCode (fun _ => []) (.obj demoData))
    [(c!"name", .tuple (.str c!"foo")), (c!"version", .tuple (.str c!"1.0")),
     (c!"requires", .list [.str c!"python-3", .str c!"it's"])] := by
  have h := module_lines (fun _ => []) [(c!"name", .str c!"foo"), (c!"version", .str c!"1.0"),
    (c!"requires", .arr [.str c!"python-3", .str c!"it's"])] (by simp) (by
      intro e he
      refine demoData_ok.2.2 e ?_
      simp only [demoData, List.mem_cons, List.not_mem_nil, or_false] at he ⊢
      rcases he with rfl | rfl | rfl
      · exact .inr (.inr rfl)
      · exact .inr (.inl rfl)
      · exact .inl rfl)
  exact Module.comment (t := c!" -*- coding: utf-8 -*-") (by decide) (Module.comment (t := c!" Rez package definition") (by decide) (Module.blank h))

/-- Objects in objects: a configuration with one entry is written as the assignment of that entry to two names, so that different
data have the same code. -/
theorem C212_nested_false : ∀ shown, attributesCode shown (.obj [(c!"config", .obj [(c!"a", .int 1)])]) =
    c!"# -*- coding: utf-8 -*-\n# Rez package definition\n\nconfig = a = 1" ∧
    attributesCode shown (.obj [(c!"config = a", .int 1)]) = attributesCode shown (.obj [(c!"config", .obj [(c!"a", .int 1)])]) := by
  intro shown
  refine ⟨?_, ?_⟩ <;> simp [attributesCode, code, codeValues, attributes, joinWith, spaces, PackagePy.intText] <;> decide

/-- An empty object leaves nothing behind the sign of equality. -/
theorem C212_empty_false : ∀ shown, attributesCode shown (.obj [(c!"tests", .obj [])]) =
    c!"# -*- coding: utf-8 -*-\n# Rez package definition\n\ntests = " := by
  intro shown
  simp [attributesCode, code, codeValues, attributes, joinWith, spaces]

/-- Backslashes are not escaped: the two characters of `\n` are read as a line break. -/
theorem C212_escape_false : Expr (pyString c!"a\\nb") (.str c!"a\nb") := by
  have : pyString c!"a\\nb" = c!"'a\\nb'" := by decide
  rw [this]
  exact .single (s := c!"a\\nb") (.char (by unfold Clean; decide) (by decide) (by decide)
    (.newline (.char (by unfold Clean; decide) (by decide) (by decide) .done)))

/-- A text of several lines that ends in a quote is written as no expression. -/
theorem C212_quote_false : ¬ ∃ e, Expr (pyString c!"a\n'") e := by
  have he : pyString c!"a\n'" = c!"'''a\n''''" := by decide
  rw [he]
  rintro ⟨e, h⟩
  generalize ht : c!"'''a\n''''" = t at h
  cases h with
  | none => cases ht
  | true => cases ht
  | false => cases ht
  | nat n =>
    have := List.all_eq_true.mp (decimal_digits n) '\'' (by rw [← ht]; simp)
    revert this; decide
  | neg n => cases ht
  | single hq =>
    rename_i s m
    have hs : s = c!"''a\n'''" := by
      have := congrArg List.tail ht
      simp only [List.tail_cons] at this
      exact (List.append_cancel_right (by simpa using this : c!"''a\n'''" ++ ['\''] = s ++ ['\''])).symm
    subst hs
    cases hq with
    | char _ h _ _ => exact h rfl
  | double hq => cases ht
  | triple hq =>
    rename_i s m
    have hs : s = c!"a\n'" := by
      have := congrArg (List.drop 3) ht
      exact (List.append_cancel_right (by simpa using this : c!"a\n'" ++ c!"'''" = s ++ c!"'''")).symm
    subst hs
    cases hq with
    | char _ _ h1 =>
      cases h1 with
      | char _ _ h2 =>
        cases h2 with
        | char _ h _ => exact h rfl
        | quote h _ _ => exact h rfl
  | list hi => cases ht

/-- Integers from 2^63 on are rounded: different numbers have the same code. -/
theorem C212_number_false : ∀ shown, attributesCode shown (.obj [(c!"x", .int (2 ^ 64 - 1))]) =
    attributesCode shown (.obj [(c!"x", .int (2 ^ 64 - 2))]) := by
  intro shown
  have h1 : ¬ ((2 : Int) ^ 64 - 1 < 2 ^ 63) := by decide
  have h2 : ¬ ((2 : Int) ^ 64 - 2 < 2 ^ 63) := by decide
  have h3 : roundBig ((2 : Int) ^ 64 - 1).toNat = roundBig ((2 : Int) ^ 64 - 2).toNat := by decide
  simp only [attributesCode, code, codeValues, if_neg h1, if_neg h2, h3]

/-- Such an integer is written as a multiple of 2048 that is nearest to it. -/
theorem C212_large (shown : Nat → Str) (k : Str) (i : Int) (hi : 2 ^ 63 ≤ i) :
    ∃ n : Nat, attributesCode shown (.obj [(k, .int i)]) = attributesCode shown (.obj [(k, .float (shown n))]) ∧ 2048 ∣ n ∧
      ∀ m : Nat, 2048 ∣ m → (n - i : Int).natAbs ≤ (m - i : Int).natAbs := by
  refine ⟨roundBig i.toNat, ?_, ⟨_, rfl⟩, ?_⟩
  · have h : ¬ i < 2 ^ 63 := by omega
    simp only [attributesCode, code, codeValues, if_neg h]
  · rintro m ⟨c, rfl⟩
    unfold roundBig
    have h0 : (0 : Int) ≤ i := le_trans (by decide) hi
    obtain ⟨n, rfl⟩ := Int.eq_ofNat_of_zero_le h0
    simp only [Int.toNat_natCast]
    split
    · omega
    · split
      · omega
      · split <;> omega

example : (2 : Int) ^ 63 ≤ 2 ^ 64 - 1 := by decide

/-! ## C213: dumping package data -/

namespace AttributesLemmas

theorem mem_skip (l : List Str) : ∀ (m : List (Str × Datum)),
    l.foldl (fun m k => mdel m k) m = m.filter fun e => decide (e.1 ∉ l) := by
  induction l with
  | nil => intro m; simp
  | cons k l ih =>
    intro m
    rw [List.foldl_cons, ih, mdel, List.filter_filter]
    apply List.filter_congr
    intro e _
    simp [Bool.and_comm, not_or]

end AttributesLemmas

/-- An object is written when the format is one of `py`, `python`, `yaml`, `yml`, `json` in any case of letters, and it has a name
that is a text and is not skipped.  What is written is the text of the entries that are not skipped. -/
theorem C213_dump (w : Lib) (m : List (Str × Datum)) (hm : (mkeys m).Nodup) (format : Str) (skipped : Option (List Str)) (t : Str) :
    dump w (.obj m) format skipped = some t ↔
      (∃ n, (c!"name", .str n) ∈ m) ∧ c!"name" ∉ skipped.getD [] ∧
      (((w.lower format = c!"py" ∨ w.lower format = c!"python") ∧
          t = attributesCode w.shown (.obj (m.filter fun e => decide (e.1 ∉ skipped.getD [])))) ∨
        ((w.lower format = c!"yaml" ∨ w.lower format = c!"yml") ∧
          w.yaml (.obj (m.filter fun e => decide (e.1 ∉ skipped.getD []))) = some t) ∨
        (w.lower format = c!"json" ∧ w.json (.obj (m.filter fun e => decide (e.1 ∉ skipped.getD []))) = some t)) := by
  have hsk : skip skipped (.obj m) = .obj (m.filter fun e => decide (e.1 ∉ skipped.getD [])) := by
    rw [skip, mem_skip]
  have hval : valid (skip skipped (.obj m)) = true ↔ (∃ n, (c!"name", .str n) ∈ m) ∧ c!"name" ∉ skipped.getD [] := by
    rw [hsk, valid]
    have hnd : (mkeys (m.filter fun e => decide (e.1 ∉ skipped.getD []))).Nodup := (List.filter_sublist.map Prod.fst).nodup hm
    constructor
    · intro h
      rcases hg : mget (m.filter fun e => decide (e.1 ∉ skipped.getD [])) c!"name" with _ | x
      · rw [hg] at h; cases h
      · have hmem := mget_some_mem hg
        rw [List.mem_filter] at hmem
        cases x with
        | str n => exact ⟨⟨n, hmem.1⟩, by simpa using hmem.2⟩
        | _ => rw [hg] at h; cases h
    · rintro ⟨⟨n, hn⟩, hs⟩
      have : (c!"name", Datum.str n) ∈ m.filter fun e => decide (e.1 ∉ skipped.getD []) := List.mem_filter.mpr ⟨hn, by simpa using hs⟩
      rw [mget_of_mem hnd this]
  unfold dump
  by_cases htxt : w.lower format = c!"txt"
  · rw [if_pos htxt]
    constructor
    · intro h; cases h
    · rintro ⟨_, _, (⟨h | h, _⟩ | ⟨h | h, _⟩ | ⟨h, _⟩)⟩ <;> rw [htxt] at h <;> exact absurd h (by decide)
  · rw [if_neg htxt]
    by_cases hv : valid (skip skipped (.obj m)) = true
    · rw [if_neg (by simp [hv])]
      obtain ⟨h1, h2⟩ := hval.mp hv
      rw [hsk]
      unfold asText
      by_cases hpy : w.lower format = c!"py" ∨ w.lower format = c!"python"
      · rw [if_pos hpy]
        constructor
        · intro h; exact ⟨h1, h2, .inl ⟨hpy, (Option.some.inj h).symm⟩⟩
        · rintro ⟨_, _, (⟨_, h⟩ | ⟨h | h, _⟩ | ⟨h, _⟩)⟩
          · rw [h]
          all_goals (rcases hpy with e | e <;> rw [e] at h <;> exact absurd h (by decide))
      · rw [if_neg hpy]
        by_cases hy : w.lower format = c!"yaml" ∨ w.lower format = c!"yml"
        · rw [if_pos hy]
          constructor
          · intro h; exact ⟨h1, h2, .inr (.inl ⟨hy, h⟩)⟩
          · rintro ⟨_, _, (⟨h, _⟩ | ⟨_, h⟩ | ⟨h, _⟩)⟩
            · exact (hpy h).elim
            · exact h
            · rcases hy with e | e <;> rw [e] at h <;> exact absurd h (by decide)
        · rw [if_neg hy]
          by_cases hj : w.lower format = c!"json"
          · rw [if_pos hj]
            constructor
            · intro h; exact ⟨h1, h2, .inr (.inr ⟨hj, h⟩)⟩
            · rintro ⟨_, _, (⟨h, _⟩ | ⟨h, _⟩ | ⟨_, h⟩)⟩
              · exact (hpy h).elim
              · exact (hy h).elim
              · exact h
          · rw [if_neg hj]
            constructor
            · intro h; cases h
            · rintro ⟨_, _, (⟨h, _⟩ | ⟨h, _⟩ | ⟨h, _⟩)⟩
              · exact (hpy h).elim
              · exact (hy h).elim
              · exact (hj h).elim
    · rw [if_pos (by simpa using hv)]
      constructor
      · intro h; cases h
      · rintro ⟨h1, h2, _⟩
        exact (hv (hval.mpr ⟨h1, h2⟩)).elim

/-- libraries that write nothing -/
def plainLib : Lib := ⟨id, fun _ => [], fun _ => none, fun _ => none⟩

/-- A file of Python code: the keys that are skipped are not bound, all others are, in the standard order. -/
theorem C213_python (w : Lib) (m : List (Str × Datum)) (hm : (mkeys m).Nodup) (h : ∀ e ∈ m, Name e.1 ∧ Simple e.2) (format : Str)
    (hf : w.lower format = c!"py" ∨ w.lower format = c!"python") (skipped : Option (List Str)) (t : Str)
    (hd : dump w (.obj m) format skipped = some t) :
    ∃ l : List (Str × Datum), (∀ e, e ∈ l ↔ e ∈ m ∧ e.1 ∉ skipped.getD []) ∧ (l.map Prod.fst).Pairwise Before ∧
      Module t (tupled (l.map fun e => (e.1, pval e.2))) := by
  obtain ⟨⟨n, hn⟩, hs, ht⟩ := (C213_dump w m hm format skipped t).mp hd
  have ht : t = attributesCode w.shown (.obj (m.filter fun e => decide (e.1 ∉ skipped.getD []))) := by
    rcases ht with ⟨_, ht⟩ | ⟨e | e, _⟩ | ⟨e, _⟩
    · exact ht
    all_goals (rcases hf with e' | e' <;> rw [e'] at e <;> exact absurd e (by decide))
  have hne : (c!"name", Datum.str n) ∈ m.filter fun e => decide (e.1 ∉ skipped.getD []) := List.mem_filter.mpr ⟨hn, by simpa using hs⟩
  obtain ⟨l, hp, hb, hmod⟩ := C212_module w.shown (m.filter fun e => decide (e.1 ∉ skipped.getD []))
    (List.ne_nil_of_mem hne) ((List.filter_sublist.map Prod.fst).nodup hm) fun e he => h e (List.mem_filter.mp he).1
  refine ⟨l, fun e => ?_, hb, ht ▸ hmod⟩
  rw [hp.mem_iff, List.mem_filter]
  simp

/-- the hypotheses are met, and a name that is skipped is an error -/
example : (dump plainLib (.obj demoData) c!"py" (some [c!"version"])).isSome = true ∧
    (dump plainLib (.obj demoData) c!"py" (some [c!"name"])).isSome = false ∧
    (dump plainLib (.obj demoData) c!"txt" none).isSome = false := by
  refine ⟨?_, ?_, ?_⟩
  · rw [Option.isSome_iff_exists]
    exact ⟨_, (C213_dump plainLib demoData demoData_ok.2.1 c!"py" (some [c!"version"]) _).mpr
      ⟨⟨c!"foo", by simp [demoData]⟩, by decide, .inl ⟨.inl rfl, rfl⟩⟩⟩
  · have h := C213_dump plainLib demoData demoData_ok.2.1 c!"py" (some [c!"name"])
    rcases hd : dump plainLib (.obj demoData) c!"py" (some [c!"name"]) with _ | t
    · rfl
    · exact absurd ((h t).mp hd).2.1 (by simp)
  · rfl

/-- Data that is not an object is written too, and so are packages whose version is no text. -/
theorem C213_schema_false : dump plainLib (.arr []) c!"py" none = some c!"# -*- coding: utf-8 -*-\n# Rez package definition\n\n[\n]" ∧
    (dump plainLib (.obj [(c!"name", .str c!"foo"), (c!"version", .bool true)]) c!"py" none).isSome = true := by
  refine ⟨?_, ?_⟩
  · simp [dump, valid, skip, asText, plainLib, attributesCode, code, codeItems, spaces]
  · rw [Option.isSome_iff_exists]
    exact ⟨_, (C213_dump plainLib _ (by decide) c!"py" none _).mpr ⟨⟨c!"foo", by simp⟩, by decide, .inl ⟨.inl rfl, rfl⟩⟩⟩

/-! ## C214: texts as YAML blocks -/

namespace AttributesLemmas

theorem yaml_quoted : ∀ (s : Str), (∀ c ∈ s, Printable c) → '\'' ∉ s → YamlQuoted s s
  | [], _, _ => .done
  | c :: s, h, hq => .char (h c (by simp)) (fun e => hq (by simp [e]))
      (yaml_quoted s (fun x hx => h x (by simp [hx])) fun hx => hq (by simp [hx]))

theorem printable_not {c : Char} (h : Printable c) : c ≠ '\n' ∧ c ≠ '\r' := by
  constructor <;> (rintro rfl; revert h; unfold Printable; decide)

theorem lines_one {s : Str} (h : ∀ c ∈ s, Printable c) : Serial.linesOf s = if s = [] then [] else [s] := by
  have hn : '\n' ∉ s := fun hc => (printable_not (h _ hc)).1 rfl
  unfold Serial.linesOf
  rw [splitChar_noSep hn]
  by_cases he : s = []
  · subst he; rfl
  · rw [if_neg he]; simp [he]

theorem split_lines (ls : List Str) (rest : Str) (h : ∀ l ∈ ls, '\n' ∉ l) :
    splitChar '\n' (ls.flatMap (· ++ c!"\n") ++ rest) = ls ++ splitChar '\n' rest := by
  induction ls with
  | nil => simp
  | cons l ls ih =>
    rw [List.flatMap_cons, List.append_assoc, List.append_assoc]
    rw [List.singleton_append, splitChar_append (h l (by simp)), ih fun x hx => h x (by simp [hx])]
    rfl

/-- lines, and a last one without line break -/
theorem lines_of (ls : List Str) (rest : Str) (h : ∀ l ∈ ls, ∀ c ∈ l, Printable c) (hr : ∀ c ∈ rest, Printable c) :
    Serial.linesOf (ls.flatMap (· ++ c!"\n") ++ rest) = ls ++ (if rest = [] then [] else [rest]) := by
  have hn : ∀ l ∈ ls, '\n' ∉ l := fun l hl hc => (printable_not (h l hl _ hc)).1 rfl
  have hrn : '\n' ∉ rest := fun hc => (printable_not (hr _ hc)).1 rfl
  unfold Serial.linesOf
  rw [split_lines ls rest hn, splitChar_noSep hrn]
  simp only [List.dropLast_concat, List.getLast?_concat, Option.toList]
  have hmap : (ls.map fun l => if l.getLast? = some '\r' then l.dropLast else l) = ls := by
    conv_rhs => rw [← List.map_id ls]
    apply List.map_congr_left
    intro l hl
    rw [if_neg]
    · rfl
    · intro e
      exact (printable_not (h l hl _ (List.mem_of_getLast? e))).2 rfl
  rw [hmap]
  by_cases he : rest = []
  · subst he; simp
  · rw [if_neg he]; simp [he]

end AttributesLemmas

/-- A text of one line, without quotes, stands between quotes. -/
theorem C214_line (s : Str) (indent : Nat) (h : ∀ c ∈ s, Printable c) (hq : '\'' ∉ s) : Scalar (blockString s indent) s := by
  unfold blockString
  rw [lines_one h]
  by_cases he : s = []
  · subst he; exact .quoted (s := []) .done
  · rw [if_neg he]; exact .quoted (yaml_quoted s h hq)

/-- A text of two or more lines that all end in a line break, the last of them not empty and the first not beginning with a space,
is written as a block that stands for it. -/
theorem C214_block (ls : List Str) (indent : Nat) (hi : 0 < indent) (h2 : 2 ≤ ls.length) (h : ∀ l ∈ ls, ∀ c ∈ l, Printable c)
    (hfirst : ∀ l, ls.find? (fun l => !l.isEmpty) = some l → l.head? ≠ some ' ') (hlast : ls.getLast? ≠ some []) :
    Scalar (blockString (ls.flatMap (· ++ c!"\n")) indent) (ls.flatMap (· ++ c!"\n")) := by
  have hl := lines_of ls [] h (fun c hc => (nomatch hc))
  rw [List.append_nil, if_pos rfl, List.append_nil] at hl
  have hclip : clip ls = ls.flatMap (· ++ c!"\n") := by
    unfold clip
    have : ls.reverse.dropWhile (·.isEmpty) = ls.reverse := by
      rcases hr : ls.reverse with _ | ⟨a, r⟩
      · rfl
      · rw [List.dropWhile_cons_of_neg]
        intro ha
        apply hlast
        rw [← List.head?_reverse, hr]
        simpa using ha
    rw [this, List.reverse_reverse]
  obtain ⟨a, b, r, rfl⟩ : ∃ a b r, ls = a :: b :: r := by
    match ls, h2 with
    | a :: b :: r, _ => exact ⟨a, b, r, rfl⟩
  unfold blockString
  rw [hl]
  rw [← hclip]
  refine .block hi ⟨?_, h, hfirst⟩
  congr 1
  funext l
  unfold blockLine spaces
  cases l <;> rfl

/-- the hypotheses are met -/
example : blockString c!"one\n\n two\n" 4 = c!"|\n    one\n\n     two\n" ∧ c!"one\n\n two\n" = [c!"one", [], c!" two"].flatMap (· ++ c!"\n") := by
  decide

/-- A text of several lines without a line break at its end gets one. -/
theorem C214_end_false : Scalar (blockString c!"one\ntwo" 4) c!"one\ntwo\n" := by
  have he : blockString c!"one\ntwo" 4 = blockString c!"one\ntwo\n" 4 := by decide
  rw [he]
  refine C214_block [c!"one", c!"two"] 4 (by decide) (by decide) ?_ ?_ (by decide)
  · intro l hl c hc
    have : ([c!"one", c!"two"] : List Str).all (fun l => l.all fun c => decide (32 ≤ c.toNat) && decide (c.toNat ≤ 126)) = true := by decide
    have := List.all_eq_true.mp (List.all_eq_true.mp this l hl) c hc
    simpa [Printable] using this
  · intro l hl
    have : l = c!"one" := by simpa using hl.symm
    rw [this]; decide

/-- A line break behind a single line is lost. -/
theorem C214_break_false : Scalar (blockString c!"one\n" 4) c!"one" := by
  have he : blockString c!"one\n" 4 = blockString c!"one" 4 := by decide
  rw [he]
  refine C214_line _ 4 ?_ (by decide)
  intro c hc
  have : (c!"one").all (fun c => decide (32 ≤ c.toNat) && decide (c.toNat ≤ 126)) = true := by decide
  have := List.all_eq_true.mp this c hc
  simpa [Printable] using this

/-- A line with a quote is written as no scalar. -/
theorem C214_quote_false : ¬ ∃ m, Scalar (blockString c!"it's" 4) m := by
  have he : blockString c!"it's" 4 = c!"'it's'" := by decide
  rw [he]
  rintro ⟨m, h⟩
  generalize ht : c!"'it's'" = t at h
  cases h with
  | quoted hq =>
    rename_i s
    have hs : s = c!"it's" := by
      have := congrArg List.tail ht
      exact (List.append_cancel_right (by simpa using this : c!"it's" ++ ['\''] = s ++ ['\''])).symm
    subst hs
    cases hq with
    | char _ _ h1 =>
      cases h1 with
      | char _ _ h2 =>
        cases h2 with
        | char _ h _ => exact h rfl
  | block hi hb => cases ht

end Rez.Props
