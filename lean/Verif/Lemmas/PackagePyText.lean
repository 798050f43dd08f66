import Verif.Spec.PackagePySave
/-!
# Lemmas about Python texts: they can be read in one way only
-/
namespace Rez.PyText
open Rez Rez.Spec.Serial

/-- Not a space and not a line break. -/
def Solid (c : Char) : Prop := c ≠ ' ' ∧ c ≠ '\n'

theorem blank_split : ∀ {a b : Str} {x y : Char} {r t : Str}, Blank a → Blank b → Solid x → Solid y →
    a ++ x :: r = b ++ y :: t → a = b ∧ x = y ∧ r = t
  | [], [], _, _, _, _, _, _, _, _, h => by cases h; exact ⟨rfl, rfl, rfl⟩
  | [], c :: b, x, y, r, t, _, hb, hx, _, h => by
    rw [List.nil_append, List.cons_append] at h
    cases h
    rcases hb c (by simp) with e | e
    · exact absurd e hx.1
    · exact absurd e hx.2
  | c :: a, [], x, y, r, t, ha, _, _, hy, h => by
    rw [List.nil_append, List.cons_append] at h
    cases h
    rcases ha c (by simp) with e | e
    · exact absurd e hy.1
    · exact absurd e hy.2
  | c :: a, d :: b, x, y, r, t, ha, hb, hx, hy, h => by
    rw [List.cons_append, List.cons_append] at h
    injection h with h1 h2
    obtain ⟨e1, e2, e3⟩ := blank_split (fun c hc => ha c (List.mem_cons_of_mem _ hc)) (fun c hc => hb c (List.mem_cons_of_mem _ hc)) hx hy h2
    exact ⟨by rw [h1, e1], e2, e3⟩

theorem literal_unique {s m : Str} (h : Literal s m) : ∀ {s' m' r r' : Str}, Literal s' m' → s ++ '"' :: r = s' ++ '"' :: r' →
    s = s' ∧ m = m' ∧ r = r' := by
  induction h with
  | done =>
    intro s' m' r r' h' e
    cases h' with
    | done => cases e; exact ⟨rfl, rfl, rfl⟩
    | char h1 => simp only [List.nil_append, List.cons_append, List.cons.injEq] at e; exact absurd e.1.symm h1
    | quote => simp at e
    | backslash => simp at e
  | char h1 h2 h3 h4 h ih =>
    intro s' m' r r' h' e
    cases h' with
    | done => simp only [List.nil_append, List.cons_append, List.cons.injEq] at e; exact absurd e.1 h1
    | char _ _ _ _ h' =>
      simp only [List.cons_append, List.cons.injEq] at e
      obtain ⟨a, b, c⟩ := ih h' e.2
      exact ⟨by rw [e.1, a], by rw [e.1, b], c⟩
    | quote => simp only [List.cons_append, List.cons.injEq] at e; exact absurd e.1 h2
    | backslash => simp only [List.cons_append, List.cons.injEq] at e; exact absurd e.1 h2
  | quote h ih =>
    intro s' m' r r' h' e
    cases h' with
    | done => simp at e
    | char _ h2 => simp only [List.cons_append, List.cons.injEq] at e; exact absurd e.1.symm h2
    | quote h' =>
      simp only [List.cons_append, List.cons.injEq, true_and] at e
      obtain ⟨a, b, c⟩ := ih h' e
      exact ⟨by rw [a], by rw [b], c⟩
    | backslash => simp at e
  | backslash h ih =>
    intro s' m' r r' h' e
    cases h' with
    | done => simp at e
    | char _ h2 => simp only [List.cons_append, List.cons.injEq] at e; exact absurd e.1.symm h2
    | quote => simp at e
    | backslash h' =>
      simp only [List.cons_append, List.cons.injEq, true_and] at e
      obtain ⟨a, b, c⟩ := ih h' e
      exact ⟨by rw [a], by rw [b], c⟩

/-- What is before the first quote. -/
theorem single_unique {s s' r r' : Str} (h : ∀ c ∈ s, c ≠ '\'') (h' : ∀ c ∈ s', c ≠ '\'') (e : s ++ '\'' :: r = s' ++ '\'' :: r') :
    s = s' ∧ r = r' := by
  induction s generalizing s' with
  | nil =>
    cases s' with
    | nil => simp only [List.nil_append, List.cons.injEq, true_and] at e; exact ⟨rfl, e⟩
    | cons c s' => simp only [List.nil_append, List.cons_append, List.cons.injEq] at e; exact absurd e.1.symm (h' c (by simp))
  | cons c s ih =>
    cases s' with
    | nil => simp only [List.nil_append, List.cons_append, List.cons.injEq] at e; exact absurd e.1 (h c (by simp))
    | cons d s' =>
      simp only [List.cons_append, List.cons.injEq] at e
      obtain ⟨a, b⟩ := ih (fun x hx => h x (by simp [hx])) (fun x hx => h' x (by simp [hx])) e.2
      exact ⟨by rw [e.1, a], b⟩

theorem expr_head {s : Str} {e : Py} (h : Expr s e) : ∃ c t, s = c :: t ∧ Solid c ∧ c ≠ ']' ∧ c ≠ ',' := by
  cases h with
  | str => exact ⟨_, _, rfl, ⟨by decide, by decide⟩, by decide, by decide⟩
  | single => exact ⟨_, _, rfl, ⟨by decide, by decide⟩, by decide, by decide⟩
  | true => exact ⟨_, _, rfl, ⟨by decide, by decide⟩, by decide, by decide⟩
  | false => exact ⟨_, _, rfl, ⟨by decide, by decide⟩, by decide, by decide⟩
  | list => exact ⟨_, _, rfl, ⟨by decide, by decide⟩, by decide, by decide⟩

theorem solid_close : Solid ']' := ⟨by decide, by decide⟩
theorem solid_comma : Solid ',' := ⟨by decide, by decide⟩

/-- Blanks before an expression, and blanks before a closing bracket. -/
theorem not_close {a b s r t : Str} {e : Py} (ha : Blank a) (hs : Expr s e) (hb : Blank b) (h : a ++ (s ++ r) = b ++ ']' :: t) : False := by
  obtain ⟨c, u, rfl, hc, h1, _⟩ := expr_head hs
  rw [List.cons_append] at h
  exact h1 (blank_split ha hb hc solid_close h).2.1

theorem expr_split {a b s t r r' : Str} {e e' : Py} (ha : Blank a) (hs : Expr s e) (hb : Blank b) (ht : Expr t e')
    (h : a ++ (s ++ r) = b ++ (t ++ r')) : a = b ∧ s ++ r = t ++ r' := by
  obtain ⟨c, u, rfl, hc, _, _⟩ := expr_head hs
  obtain ⟨d, v, rfl, hd, _, _⟩ := expr_head ht
  rw [List.cons_append, List.cons_append] at h
  obtain ⟨h1, h2, h3⟩ := blank_split ha hb hc hd h
  exact ⟨h1, by rw [List.cons_append, List.cons_append, h2, h3]⟩

mutual

theorem expr_unique : ∀ {s : Str} {e : Py}, Expr s e → ∀ {s' r r' : Str} {e' : Py}, Expr s' e' → s ++ r = s' ++ r' →
    s = s' ∧ e = e' ∧ r = r'
  | _, _, .str h, s', r, r', e', h', eq => by
    cases h' with
    | str h' =>
      simp only [List.cons_append, List.append_assoc, List.nil_append, List.cons.injEq, true_and] at eq
      obtain ⟨a, b, c⟩ := literal_unique h h' eq
      exact ⟨by rw [a], by rw [b], c⟩
    | single => simp at eq
    | true => simp at eq
    | false => simp at eq
    | list => simp at eq
  | _, _, .single h, s', r, r', e', h', eq => by
    cases h' with
    | str => simp at eq
    | single h' =>
      simp only [List.cons_append, List.append_assoc, List.nil_append, List.cons.injEq, true_and] at eq
      obtain ⟨a, b⟩ := single_unique (fun c hc => (h c hc).1) (fun c hc => (h' c hc).1) eq
      exact ⟨by rw [a], by rw [a], b⟩
    | true => simp at eq
    | false => simp at eq
    | list => simp at eq
  | _, _, .true, s', r, r', e', h', eq => by
    cases h' with
    | str h' => simp at eq
    | single => simp at eq
    | true => exact ⟨rfl, rfl, by simpa using eq⟩
    | false => simp at eq
    | list => simp at eq
  | _, _, .false, s', r, r', e', h', eq => by
    cases h' with
    | str h' => simp at eq
    | single => simp at eq
    | true => simp at eq
    | false => exact ⟨rfl, rfl, by simpa using eq⟩
    | list => simp at eq
  | _, _, .list h, s', r, r', e', h', eq => by
    cases h' with
    | str h' => simp at eq
    | single => simp at eq
    | true => simp at eq
    | false => simp at eq
    | list h' =>
      simp only [List.cons_append, List.append_assoc, List.nil_append, List.cons.injEq, true_and] at eq
      obtain ⟨a, b, c⟩ := items_unique h h' eq
      exact ⟨by rw [a], by rw [b], c⟩

theorem items_unique : ∀ {s : Str} {l : List Py}, Items s l → ∀ {s' r r' : Str} {l' : List Py}, Items s' l' →
    s ++ ']' :: r = s' ++ ']' :: r' → s = s' ∧ l = l' ∧ r = r'
  | _, _, .none h, s', r, r', l', h', eq => by
    cases h' with
    | none h' =>
      obtain ⟨a, _, c⟩ := blank_split h h' solid_close solid_close eq
      exact ⟨a, rfl, c⟩
    | last ha hs hb =>
      simp only [List.append_assoc] at eq
      exact (not_close ha hs h eq.symm).elim
    | more ha hs hb hr =>
      simp only [List.append_assoc] at eq
      exact (not_close ha hs h eq.symm).elim
  | _, _, .last ha hs hb, s', r, r', l', h', eq => by
    cases h' with
    | none h' =>
      simp only [List.append_assoc] at eq
      exact (not_close ha hs h' eq).elim
    | last ha' hs' hb' =>
      simp only [List.append_assoc] at eq
      obtain ⟨e1, e2⟩ := expr_split ha hs ha' hs' eq
      obtain ⟨e3, e4, e5⟩ := expr_unique hs hs' e2
      obtain ⟨e6, _, e7⟩ := blank_split hb hb' solid_close solid_close e5
      exact ⟨by rw [e1, e3, e6], by rw [e4], e7⟩
    | more ha' hs' hb' hr' =>
      simp only [List.append_assoc, List.cons_append] at eq
      obtain ⟨e1, e2⟩ := expr_split ha hs ha' hs' eq
      obtain ⟨e3, e4, e5⟩ := expr_unique hs hs' e2
      exact absurd (blank_split hb hb' solid_close solid_comma e5).2.1 (by decide)
  | _, _, .more ha hs hb hr, s', r, r', l', h', eq => by
    cases h' with
    | none h' =>
      simp only [List.append_assoc] at eq
      exact (not_close ha hs h' eq).elim
    | last ha' hs' hb' =>
      simp only [List.append_assoc, List.cons_append] at eq
      obtain ⟨e1, e2⟩ := expr_split ha hs ha' hs' eq
      obtain ⟨e3, e4, e5⟩ := expr_unique hs hs' e2
      exact absurd (blank_split hb hb' solid_comma solid_close e5).2.1 (by decide)
    | more ha' hs' hb' hr' =>
      simp only [List.append_assoc, List.cons_append] at eq
      obtain ⟨e1, e2⟩ := expr_split ha hs ha' hs' eq
      obtain ⟨e3, e4, e5⟩ := expr_unique hs hs' e2
      obtain ⟨e6, _, e7⟩ := blank_split hb hb' solid_comma solid_comma e5
      obtain ⟨e8, e9, e10⟩ := items_unique hr hr' e7
      exact ⟨by rw [e1, e3, e6, e8], by rw [e4, e9], e10⟩

end

/-- A name and what follows it. -/
theorem name_split : ∀ {n m r t : Str}, (∀ c ∈ n, isAlpha c || c == '_') → (∀ c ∈ m, isAlpha c || c == '_') →
    n ++ ' ' :: r = m ++ ' ' :: t → n = m ∧ r = t
  | [], [], _, _, _, _, h => by cases h; exact ⟨rfl, rfl⟩
  | [], c :: m, _, _, _, hm, h => by
    rw [List.nil_append, List.cons_append] at h
    cases h
    exact absurd (hm ' ' (by simp)) (by decide)
  | c :: n, [], _, _, hn, _, h => by
    rw [List.nil_append, List.cons_append] at h
    cases h
    exact absurd (hn ' ' (by simp)) (by decide)
  | c :: n, d :: m, _, _, hn, hm, h => by
    rw [List.cons_append, List.cons_append] at h
    injection h with h1 h2
    obtain ⟨e1, e2⟩ := name_split (fun c hc => hn c (List.mem_cons_of_mem _ hc)) (fun c hc => hm c (List.mem_cons_of_mem _ hc)) h2
    exact ⟨by rw [h1, e1], e2⟩

theorem line_split : ∀ {a b r t : Str}, '\n' ∉ a → '\n' ∉ b → a ++ '\n' :: r = b ++ '\n' :: t → r = t
  | [], [], _, _, _, _, h => by cases h; rfl
  | [], c :: b, _, _, _, hb, h => by
    rw [List.nil_append, List.cons_append] at h
    cases h
    exact absurd (List.mem_cons_self) hb
  | c :: a, [], _, _, ha, _, h => by
    rw [List.nil_append, List.cons_append] at h
    cases h
    exact absurd (List.mem_cons_self) ha
  | c :: a, d :: b, _, _, ha, hb, h => by
    rw [List.cons_append, List.cons_append] at h
    injection h with h1 h2
    exact line_split (fun hc => ha (List.mem_cons_of_mem _ hc)) (fun hc => hb (List.mem_cons_of_mem _ hc)) h2

/-- A list of assignments. -/
def Assigns (l : List Stmt) : Prop := ∀ st ∈ l, ∃ n e, st = .assign n e

theorem name_head {n : Str} (h : ∀ c ∈ n, isAlpha c || c == '_') (hn : n ≠ []) : ∃ c t, n = c :: t ∧ c ≠ '\n' ∧ c ≠ '#' := by
  cases n with
  | nil => exact absurd rfl hn
  | cons c t =>
    refine ⟨c, t, rfl, ?_, ?_⟩
    · rintro rfl; exact absurd (h _ List.mem_cons_self) (by decide)
    · rintro rfl; exact absurd (h _ List.mem_cons_self) (by decide)

theorem program_unique {s : Str} {l : List Stmt} (h : Program s l) : Assigns l → ∀ {s' : Str} {l' : List Stmt}, Program s' l' → Assigns l' →
    s = s' → l = l' := by
  induction h with
  | done =>
    intro _ s' l' h' ha eq
    cases h' with
    | done => rfl
    | blank => cases eq
    | comment => simp at eq
    | assign h1 h2 =>
      obtain ⟨c, t, rfl, _⟩ := name_head h1 h2
      simp at eq
    | function => simp at eq
  | blank h ih =>
    intro hl s' l' h' ha eq
    cases h' with
    | done => cases eq
    | blank h' => injection eq with _ e; exact ih hl h' ha e
    | comment => simp at eq
    | assign h1 h2 =>
      obtain ⟨c, t, rfl, h3, _⟩ := name_head h1 h2
      simp only [List.cons_append, List.cons.injEq] at eq
      exact absurd eq.1.symm h3
    | function => simp at eq
  | comment hc h ih =>
    intro hl s' l' h' ha eq
    cases h' with
    | done => simp at eq
    | blank h' => simp at eq
    | comment hc' h' =>
      simp only [List.cons_append, List.append_assoc, List.nil_append, List.cons.injEq, true_and] at eq
      exact ih hl h' ha (line_split hc hc' eq)
    | assign h1 h2 =>
      obtain ⟨c, t, rfl, _, h3⟩ := name_head h1 h2
      simp only [List.cons_append, List.cons.injEq] at eq
      exact absurd eq.1.symm h3
    | function => simp at eq
  | assign h1 h2 he h ih =>
    intro hl s' l' h' ha eq
    cases h' with
    | done =>
      obtain ⟨c, t, rfl, _⟩ := name_head h1 h2
      simp at eq
    | blank h' =>
      obtain ⟨c, t, rfl, h3, _⟩ := name_head h1 h2
      simp only [List.cons_append, List.cons.injEq] at eq
      exact absurd eq.1 h3
    | comment hc' h' =>
      obtain ⟨c, t, rfl, _, h3⟩ := name_head h1 h2
      simp only [List.cons_append, List.cons.injEq] at eq
      exact absurd eq.1 h3
    | assign h1' h2' he' h' =>
      simp only [List.append_assoc, List.cons_append, List.nil_append] at eq
      obtain ⟨e1, e2⟩ := name_split h1 h1' eq
      simp only [List.cons.injEq, true_and] at e2
      obtain ⟨e3, e4, e5⟩ := expr_unique he he' e2
      injection e5 with _ e6
      rw [e1, e4, ih (fun st hs => hl st (List.mem_cons_of_mem _ hs)) h' (fun st hs => ha st (List.mem_cons_of_mem _ hs)) e6]
    | function =>
      obtain ⟨n, e, h3⟩ := ha _ List.mem_cons_self
      cases h3
  | function =>
    intro hl
    obtain ⟨n, e, h3⟩ := hl _ List.mem_cons_self
    cases h3

end Rez.PyText
