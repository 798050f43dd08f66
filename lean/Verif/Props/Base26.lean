import Verif.Model.Base26
import Verif.Spec.Base26
import Mathlib.Data.List.Perm.Subperm
/-!
# Base-26 names and links: C51, C52
-/
namespace Rez.Props
open Rez Rez.Base26 Rez.Spec.Base26

theorem isLower_iff (c : Char) : isLower c = true ↔ 'a' ≤ c ∧ c ≤ 'z' := by
  simp only [isLower, Bool.and_eq_true, decide_eq_true_eq, Char.le_def, UInt32.le_iff_toNat_le]
  exact Iff.rfl

theorem all_lower_iff (s : Str) : s.all isLower = true ↔ ∀ c ∈ s, 'a' ≤ c ∧ c ≤ 'z' := by
  simp only [List.all_eq_true, isLower_iff]

/-- value from the last letter -/
def valueRev : List Char → Nat
  | [] => 0
  | c :: cs => 26 * valueRev cs + (c.toNat - 96)

theorem value_rev (s : Str) : value s = valueRev s.reverse := by
  unfold value
  rw [← List.foldr_reverse]
  generalize s.reverse = r
  induction r with
  | nil => rfl
  | cons c r ih => simp only [List.foldr_cons, valueRev, ih]

theorem ofNat_toNat {n : Nat} (h : n ≤ 122) : (Char.ofNat n).toNat = n := by
  have : n.isValidChar := Or.inl (by omega)
  simp [Char.ofNat, this, Char.toNat, Char.ofNatAux]

theorem bump_spec (r : List Char) (h : r.all isLower = true) :
    (bump r).all isLower = true ∧ valueRev (bump r) = valueRev r + 1 := by
  induction r with
  | nil => decide
  | cons c r ih =>
    simp only [List.all_cons, Bool.and_eq_true] at h
    unfold bump
    by_cases hc : c = 'z'
    · subst hc
      obtain ⟨h1, h2⟩ := ih h.2
      simp only [if_true, List.all_cons, h1, valueRev, h2]
      refine ⟨by decide, ?_⟩
      have e1 : 'a'.toNat = 97 := rfl
      have e2 : 'z'.toNat = 122 := rfl
      rw [e1, e2]; omega
    · simp only [if_neg hc, List.all_cons, valueRev, h.2]
      have hl := h.1
      simp only [isLower, Bool.and_eq_true, decide_eq_true_eq] at hl
      have hne : c.toNat ≠ 122 := by
        intro he
        apply hc
        exact Char.toNat_inj.mp he
      rw [ofNat_toNat (by omega)]
      refine ⟨?_, by omega⟩
      simp only [isLower, ofNat_toNat (show c.toNat + 1 ≤ 122 by omega), Bool.and_true, Bool.and_eq_true, decide_eq_true_eq]
      omega

/-! ## C51 -/

/-- `get_next_base26` gives the successor: it fails exactly on texts with another character, and else returns the name of
the next number. -/
theorem C51_successor (s : Str) :
    (next (some s) = none ↔ ¬∀ c ∈ s, 'a' ≤ c ∧ c ≤ 'z') ∧
    ∀ t, next (some s) = some t → IsName t ∧ value t = value s + 1 := by
  simp only [next]
  by_cases h : s.all isLower = true
  · rw [if_pos h]
    refine ⟨by simp only [reduceCtorEq, false_iff, Classical.not_not]; exact (all_lower_iff s).mp h, ?_⟩
    intro t ht
    cases ht
    obtain ⟨h1, h2⟩ := bump_spec s.reverse (by simpa using h)
    have hv : value (bump s.reverse).reverse = value s + 1 := by
      rw [value_rev, value_rev, List.reverse_reverse, h2]
    refine ⟨⟨?_, ?_⟩, hv⟩
    · intro he
      rw [he] at hv
      simp [value] at hv
    · rw [← all_lower_iff]
      simpa using h1
  · rw [if_neg h]
    refine ⟨by simp only [true_iff]; rwa [← all_lower_iff], ?_⟩
    intro t ht
    cases ht

/-- `get_next_base26` applied over and over, from nothing -/
def nth : Nat → Option Str
  | 0 => next none
  | n + 1 => match nth n with
    | some s => next (some s)
    | none => none

/-- The `n`th name exists, and is the numeral of `n + 1`: so none is ever repeated. -/
theorem C51_sequence (n : Nat) : ∃ s, nth n = some s ∧ IsName s ∧ value s = n + 1 := by
  induction n with
  | zero => exact ⟨c!"a", rfl, ⟨by decide, by intro c hc; simp only [List.mem_singleton] at hc; subst hc; exact ⟨by decide, by decide⟩⟩, rfl⟩
  | succ n ih =>
    obtain ⟨s, h1, h2, h3⟩ := ih
    simp only [nth, h1]
    rcases hn : next (some s) with _ | t
    · exact (((C51_successor s).1.mp hn) h2.2).elim
    · obtain ⟨h4, h5⟩ := (C51_successor s).2 t hn
      exact ⟨t, rfl, h4, by omega⟩

theorem C51_no_repeat (m n : Nat) (h : nth m = nth n) : m = n := by
  obtain ⟨s, h1, _, h3⟩ := C51_sequence m
  obtain ⟨t, h4, _, h6⟩ := C51_sequence n
  rw [h1, h4] at h
  cases h
  omega

theorem valueRev_inj (r : List Char) : ∀ (q : List Char), r.all isLower = true → q.all isLower = true → valueRev r = valueRev q → r = q := by
  induction r with
  | nil =>
    intro q _ hq h
    rcases q with _ | ⟨c, q⟩
    · rfl
    · simp only [List.all_cons, Bool.and_eq_true, isLower, decide_eq_true_eq] at hq
      simp only [valueRev] at h
      omega
  | cons c r ih =>
    intro q hr hq h
    rcases q with _ | ⟨d, q⟩
    · simp only [List.all_cons, Bool.and_eq_true, isLower, decide_eq_true_eq] at hr
      simp only [valueRev] at h
      omega
    · simp only [List.all_cons, Bool.and_eq_true] at hr hq
      have h1 := hr.1
      have h2 := hq.1
      simp only [isLower, Bool.and_eq_true, decide_eq_true_eq] at h1 h2
      simp only [valueRev] at h
      have hc : c = d := Char.toNat_inj.mp (by omega)
      subst hc
      rw [ih q hr.2 hq.2 (by omega)]

/-- Two names stand for different numbers; every name is reached. -/
theorem C51_all_names (s : Str) (hs : IsName s) : ∃ n, nth n = some s := by
  have hpos : 0 < value s := by
    rw [value_rev]
    rcases hr : s.reverse with _ | ⟨c, r⟩
    · exact (hs.1 (by simpa using hr)).elim
    · have : isLower c = true := by
        have := (all_lower_iff s).mpr hs.2
        rw [List.all_eq_true] at this
        exact this c (by rw [← List.mem_reverse, hr]; simp)
      simp only [isLower, Bool.and_eq_true, decide_eq_true_eq] at this
      simp only [valueRev]
      omega
  obtain ⟨t, h1, h2, h3⟩ := C51_sequence (value s - 1)
  refine ⟨_, h1.trans ?_⟩
  congr 1
  have hv : valueRev t.reverse = valueRev s.reverse := by
    rw [← value_rev, ← value_rev]; omega
  have := valueRev_inj _ _ (by simpa using (all_lower_iff t).mpr h2.2) (by simpa using (all_lower_iff s).mpr hs.2) hv
  simpa using this

example : nth 27 = some c!"ab" ∧ value c!"ab" = 28 ∧ nth 701 = some c!"zz" := by decide +kernel

/-! ## C52 -/

theorem tries_created {d : Dir} {n : Nat} {name x : Str} (h : tries d n name = .created x) : x ∉ mkeys d := by
  induction n generalizing name with
  | zero => cases h
  | succ n ih =>
    simp only [tries] at h
    by_cases hm : name ∈ mkeys d
    · rw [if_pos hm] at h
      rcases hn : next (some name) with _ | y
      · rw [hn] at h; cases h
      · rw [hn] at h; exact ih h
    · rw [if_neg hm] at h
      cases h
      exact hm

/-- Whatever name is created is new, and an existing link is returned exactly if there is one to the target.  Calling
again, with any listing, returns a link to the target. -/
theorem C52_created_partial (d : Dir) (target : Str) :
    (∀ x, create d target = .created x → x ∉ mkeys d ∧ ∀ y, (y, some target) ∉ d) ∧
    (∀ x, create d target = .existing x → (x, some target) ∈ d) ∧
    ((∃ x, (x, some target) ∈ d) ↔ ∃ x, create d target = .existing x) := by
  have hfind : ∀ x, findMatching d target = some x → (x, some target) ∈ d := by
    intro x h
    unfold findMatching at h
    rcases hf : d.find? (fun p => p.2 == some target) with _ | p
    · rw [hf] at h; cases h
    · rw [hf] at h
      cases h
      have h1 := List.find?_some hf
      have h2 := List.mem_of_find?_eq_some hf
      have : p.2 = some target := by simpa using h1
      rw [← this]; exact h2
  have hnone : findMatching d target = none → ∀ y, (y, some target) ∉ d := by
    intro h y hy
    unfold findMatching at h
    rw [Option.map_eq_none_iff, List.find?_eq_none] at h
    have := h _ hy
    simp at this
  have htr : ∀ n name x, tries d n name ≠ .existing x := by
    intro n
    induction n with
    | zero => intro name x h; cases h
    | succ n ih =>
      intro name x h
      simp only [tries] at h
      by_cases hm : name ∈ mkeys d
      · rw [if_pos hm] at h
        rcases hn : next (some name) with _ | y
        · rw [hn] at h; cases h
        · rw [hn] at h; exact ih _ _ h
      · rw [if_neg hm] at h; cases h
  have hex : ∀ x, create d target = .existing x → findMatching d target = some x := by
    intro x h
    unfold create at h
    rcases hf : findMatching d target with _ | y
    · rw [hf] at h
      simp only at h
      rcases hn : next (maxName d) with _ | z
      · rw [hn] at h; cases h
      · rw [hn] at h; exact (htr _ _ _ h).elim
    · rw [hf] at h; cases h; rfl
  refine ⟨?_, fun x h => hfind x (hex x h), ?_⟩
  · intro x h
    unfold create at h
    rcases hf : findMatching d target with _ | y
    · rw [hf] at h
      simp only at h
      rcases hn : next (maxName d) with _ | z
      · rw [hn] at h; cases h
      · rw [hn] at h; exact ⟨tries_created h, hnone hf⟩
    · rw [hf] at h; cases h
  · constructor
    · rintro ⟨x, hx⟩
      rcases hf : findMatching d target with _ | y
      · exact (hnone hf x hx).elim
      · exact ⟨y, by unfold create; rw [hf]⟩
    · rintro ⟨x, hx⟩
      exact ⟨x, hfind x (hex x hx)⟩

/-- the greatest name, if one is greater than all others -/
theorem foldMax_eq (xs : List Str) (cur : Option Str) (mx : Str)
    (hcur : ∀ c, cur = some c → c = mx ∨ strLt c mx = true)
    (hmem : cur = some mx ∨ mx ∈ xs) (hall : ∀ x ∈ xs, x ≠ mx → strLt x mx = true ∧ strLt mx x = false)
    (hirr : strLt mx mx = false) : xs.foldl keepMax cur = some mx := by
  induction xs generalizing cur with
  | nil =>
    rcases hmem with h | h
    · exact h
    · cases h
  | cons x xs ih =>
    rw [List.foldl_cons]
    apply ih
    · intro c hc
      rcases cur with _ | d
      · cases hc
        by_cases hx : x = mx
        · exact .inl hx
        · exact .inr (hall x (by simp) hx).1
      · simp only [keepMax] at hc
        split at hc
        · cases hc
          by_cases hx : x = mx
          · exact .inl hx
          · exact .inr (hall x (by simp) hx).1
        · cases hc
          exact hcur _ rfl
    · rcases hmem with h | h
      · subst h
        left
        simp only [keepMax]
        by_cases hx : x = mx
        · subst hx; rw [hirr]; rfl
        · rw [(hall x (by simp) hx).2]; rfl
      · rcases List.mem_cons.mp h with rfl | h
        · left
          rcases cur with _ | d
          · rfl
          · simp only [keepMax]
            rcases hcur d rfl with rfl | hd
            · rw [hirr]; rfl
            · rw [hd]; rfl
        · exact .inr h
    · exact fun y hy => hall y (by simp [hy])

/-- `nth`, as a name -/
def nameAt (n : Nat) : Str := (nth n).getD []

/-- the greatest of the first names -/
def lastName (n : Nat) : Str := if n ≤ 26 then nameAt (n - 1) else c!"z"

/-- the names after `n` links, and what a further link does, whatever the targets and the order of the listing -/
theorem tries_congr {d e : Dir} (h : ∀ x, x ∈ mkeys d ↔ x ∈ mkeys e) (n : Nat) (name : Str) : tries d n name = tries e n name := by
  induction n generalizing name with
  | zero => rfl
  | succ n ih =>
    simp only [tries]
    by_cases hm : name ∈ mkeys d
    · rw [if_pos hm, if_pos ((h _).mp hm)]
      rcases next (some name) with _ | y
      · rfl
      · exact ih y
    · rw [if_neg hm, if_neg (fun hx => hm ((h _).mpr hx))]

/-- what is checked for each number of links up to 36 -/
def stepOk (n : Nat) : Bool :=
  let names := (List.range n).map nameAt
  let d : Dir := names.map fun x => (x, none)
  (n == 0 || (decide (lastName n ∈ names) && !strLt (lastName n) (lastName n) &&
    names.all fun x => x == lastName n || (strLt x (lastName n) && !strLt (lastName n) x))) &&
  names.all (fun x => x.all isLower) &&
  match next (if n = 0 then none else some (lastName n)) with
  | some name => decide (tries d 10 name = if n < 36 then .created (nameAt n) else .exhausted)
  | none => false

theorem stepOk_all : ∀ n, n ≤ 36 → stepOk n = true := by decide +kernel

/-- a directory with `n` links that has none to the target: the next link -/
theorem create_nth (d : Dir) (n : Nat) (hn : n ≤ 36) (hd : (mkeys d).Perm ((List.range n).map nameAt)) (target : Str)
    (ht : ∀ x, (x, some target) ∉ d) : create d target = if n < 36 then .created (nameAt n) else .exhausted := by
  have hf : findMatching d target = none := by
    unfold findMatching
    rw [Option.map_eq_none_iff, List.find?_eq_none]
    intro p hp hx
    have : p.2 = some target := by simpa using hx
    exact ht p.1 (by rw [← this]; exact hp)
  have hok := stepOk_all n hn
  simp only [stepOk, Bool.and_eq_true] at hok
  obtain ⟨⟨hmax, hlow⟩, htry⟩ := hok
  have hmax' : maxName d = if n = 0 then none else some (lastName n) := by
    have hfil : ((d.map Prod.fst).filter fun x => x.all isLower) = d.map Prod.fst := by
      rw [List.filter_eq_self]
      intro x hx
      exact List.all_eq_true.mp hlow x (hd.mem_iff.mp hx)
    unfold maxName
    rw [hfil]
    by_cases h0 : n = 0
    · subst h0
      rw [if_pos rfl]
      have : d = [] := by
        have := hd.length_eq
        simp [mkeys] at this
        exact this
      subst this
      rfl
    · rw [if_neg h0]
      simp only [Bool.or_eq_true, beq_iff_eq, h0, false_or, Bool.and_eq_true, decide_eq_true_eq, Bool.not_eq_true'] at hmax
      apply foldMax_eq
      · intro c hc; cases hc
      · exact .inr (hd.mem_iff.mpr hmax.1.1)
      · intro x hx hne
        have := List.all_eq_true.mp hmax.2 x (hd.mem_iff.mp hx)
        simp only [Bool.or_eq_true, beq_iff_eq, hne, false_or, Bool.and_eq_true, Bool.not_eq_true'] at this
        exact this
      · exact hmax.1.2
  unfold create
  rw [hf]
  simp only
  rw [hmax']
  rcases hnx : next (if n = 0 then none else some (lastName n)) with _ | name
  · rw [hnx] at htry; cases htry
  · rw [hnx] at htry
    simp only [decide_eq_true_eq] at htry
    simp only
    rw [← htry]
    apply tries_congr
    intro x
    rw [hd.mem_iff]
    simp [mkeys, Function.comp_def]

/-- Links to the targets in turn; each call may see the directory in another order. -/
inductive Links : List Str → Dir → Prop where
  | nil : Links [] []
  | more (ts : List Str) (d scan : Dir) (t : Str) (h : Links ts d) (hp : scan.Perm d) (ht : t ∉ ts) :
    Links (t :: ts) (after scan t (create scan t))

theorem links_names (ts : List Str) (d : Dir) (h : Links ts d) (hn : ts.length ≤ 36) :
    (mkeys d).Perm ((List.range ts.length).map nameAt) ∧ ∀ x t, (x, some t) ∈ d → t ∈ ts := by
  induction h with
  | nil => exact ⟨.refl _, by intro x t h; cases h⟩
  | more ts d scan t h hp ht ih =>
    simp only [List.length_cons] at hn
    obtain ⟨h1, h2⟩ := ih (by omega)
    have hk : (mkeys scan).Perm (mkeys d) := hp.map _
    have hc := create_nth scan ts.length (by omega) (hk.trans h1) t (fun x hx => ht (h2 x t (hp.mem_iff.mp hx)))
    rw [if_pos (by omega)] at hc
    rw [hc]
    refine ⟨?_, ?_⟩
    · simp only [after, List.length_cons, List.range_succ, List.map_append, List.map_cons, List.map_nil]
      show (nameAt ts.length :: mkeys scan).Perm _
      exact ((List.Perm.cons _ (hk.trans h1))).trans (List.perm_append_singleton _ _).symm
    · intro x t' hx
      rcases List.mem_cons.mp hx with hx | hx
      · cases hx; simp
      · exact List.mem_cons_of_mem _ (h2 x t' (hp.mem_iff.mp hx))

/-- The first 36 links of a directory are made, each with the next name in the sequence.  Missing: from the 37th on it is
false. -/
theorem C52_first_36_partial (ts : List Str) (d scan : Dir) (h : Links ts d) (hn : ts.length < 36) (hp : scan.Perm d)
    (t : Str) (ht : t ∉ ts) : ∃ x, nth ts.length = some x ∧ create scan t = .created x := by
  obtain ⟨h1, h2⟩ := links_names ts d h (by omega)
  have hk : (mkeys scan).Perm (mkeys d) := hp.map _
  have hc := create_nth scan ts.length (by omega) (hk.trans h1) t (fun x hx => ht (h2 x t (hp.mem_iff.mp hx)))
  rw [if_pos hn] at hc
  obtain ⟨s, hs, _⟩ := C51_sequence ts.length
  exact ⟨s, hs, by rw [hc]; simp [nameAt, hs]⟩

/-- With 36 links no further link can be made, whatever the targets and the order of the listing. -/
theorem C52_37th_false (ts : List Str) (d scan : Dir) (h : Links ts d) (hn : ts.length = 36) (hp : scan.Perm d)
    (t : Str) (ht : t ∉ ts) : create scan t = .exhausted := by
  obtain ⟨h1, h2⟩ := links_names ts d h (by omega)
  have hk : (mkeys scan).Perm (mkeys d) := hp.map _
  have hc := create_nth scan ts.length (by omega) (hk.trans h1) t (fun x hx => ht (h2 x t (hp.mem_iff.mp hx)))
  rw [hc, hn]; rfl

/-- the hypotheses are met -/
example : ∃ d, Links [c!"/y", c!"/x"] d ∧ create d c!"/z" = .created c!"c" :=
  ⟨_, .more _ _ _ c!"/y" (.more _ _ _ c!"/x" .nil (.refl _) (by decide)) (.refl _) (by decide), by decide +kernel⟩

/-- a directory with links to `n` different targets exists -/
example : ∃ ts d, Links ts d ∧ ts.length = 36 := by
  have : ∀ n, ∃ ts d, Links ts d ∧ ts.length = n ∧ ∀ t ∈ ts, t.length ≤ n := by
    intro n
    induction n with
    | zero => exact ⟨[], [], .nil, rfl, by simp⟩
    | succ n ih =>
      obtain ⟨ts, d, h, hl, ha⟩ := ih
      refine ⟨List.replicate (n + 1) 'x' :: ts, _, .more ts d d _ h (.refl _) ?_, by simp [hl], ?_⟩
      · intro hm
        have := ha _ hm
        rw [List.length_replicate] at this
        omega
      · intro t ht
        rcases List.mem_cons.mp ht with rfl | ht
        · simp
        · have := ha t ht; omega
  obtain ⟨ts, d, h, hl, _⟩ := this 36
  exact ⟨ts, d, h, hl⟩

end Rez.Props
