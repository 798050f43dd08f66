import Verif.Lemmas.VersionParse
/-! Lemmas about splitting and joining text. -/
namespace Rez

theorem splitChar_ne_nil (d : Char) (s : Str) : splitChar d s ≠ [] := by
  cases s with
  | nil => simp [splitChar]
  | cons c cs =>
    simp only [splitChar]
    split
    · simp
    · split <;> simp

theorem splitChar_noSep {d : Char} {s : Str} (h : d ∉ s) : splitChar d s = [s] := by
  induction s with
  | nil => rfl
  | cons c cs ih =>
    have hc : c ≠ d := fun e => h (by simp [e])
    simp [splitChar, hc, ih (fun hm => h (List.mem_cons_of_mem _ hm))]

theorem splitChar_append {d : Char} {s : Str} (h : d ∉ s) (r : Str) :
    splitChar d (s ++ d :: r) = s :: splitChar d r := by
  induction s with
  | nil => simp [splitChar]
  | cons c cs ih =>
    have hc : c ≠ d := fun e => h (by simp [e])
    simp [splitChar, hc, ih (fun hm => h (List.mem_cons_of_mem _ hm))]

theorem splitChar_join {d : Char} {ps : List Str} (hne : ps ≠ []) (h : ∀ p ∈ ps, d ∉ p) :
    splitChar d (joinWith [d] ps) = ps := by
  induction ps with
  | nil => exact absurd rfl hne
  | cons p qs ih =>
    cases qs with
    | nil => exact splitChar_noSep (h p (by simp))
    | cons q qs =>
      simp only [joinWith, List.append_assoc, List.cons_append, List.nil_append]
      rw [splitChar_append (h p (by simp)), ih (by simp) (fun p hp => h p (List.mem_cons_of_mem _ hp))]

theorem mem_joinWith {sep : Str} {ps : List Str} {c : Char} (h : c ∈ joinWith sep ps) :
    c ∈ sep ∨ ∃ p ∈ ps, c ∈ p := by
  induction ps with
  | nil => simp [joinWith] at h
  | cons p qs ih =>
    cases qs with
    | nil => exact Or.inr ⟨p, by simp, h⟩
    | cons q qs =>
      simp only [joinWith, List.mem_append] at h
      rcases h with (h | h) | h
      · exact Or.inr ⟨p, by simp, h⟩
      · exact Or.inl h
      · rcases ih h with h | ⟨p', hp, hc⟩
        · exact Or.inl h
        · exact Or.inr ⟨p', List.mem_cons_of_mem _ hp, hc⟩

theorem trimmed_of_noWs {s : Str} (h : ∀ c ∈ s, isWs c = false) : Trimmed s := by
  constructor
  · intro c hc; exact h c (List.mem_of_mem_head? hc)
  · intro c hc; exact h c (List.mem_of_mem_getLast? hc)

theorem trim_of_noWs {s : Str} (h : ∀ c ∈ s, isWs c = false) : trim s = s :=
  trim_of_trimmed (trimmed_of_noWs h)

theorem mem_trim_of_mem {s : Str} {c : Char} (h : c ∈ s) (hw : isWs c = false) : c ∈ trim s := by
  have h1 : ∀ l : Str, c ∈ l → c ∈ l.dropWhile isWs := by
    intro l hl
    induction l with
    | nil => cases hl
    | cons x xs ih =>
      by_cases hx : isWs x = true
      · rw [List.dropWhile_cons_of_pos hx]
        rcases List.mem_cons.mp hl with rfl | hl
        · rw [hw] at hx; cases hx
        · exact ih hl
      · rw [List.dropWhile_cons_of_neg hx]; exact hl
  unfold trim trimEnd trimStart
  rw [List.mem_reverse]
  apply h1
  rw [List.mem_reverse]
  exact h1 s h

theorem splitOnce_none {pat s : Str} (h : containsStr s pat = false) : splitOnce pat s = none := by
  induction s with
  | nil => simp [containsStr] at h; simp [splitOnce, h]
  | cons c cs ih =>
    rw [containsStr, Bool.or_eq_false_iff] at h
    simp [splitOnce, h.1, ih h.2]

theorem containsDots_append {a r : Str} (h : r.head? ≠ some '.') :
    containsStr (a ++ r) c!".." = (containsStr a c!".." || containsStr r c!"..") := by
  induction a with
  | nil => simp [containsStr]
  | cons c cs ih =>
    rw [List.cons_append, containsStr, containsStr, ih, ← Bool.or_assoc]
    congr 2
    cases cs with
    | nil =>
      cases r with
      | nil => rfl
      | cons x xs =>
        have : x ≠ '.' := by simpa using h
        simp [List.isPrefixOf, Ne.symm this]
    | cons x xs => simp [List.isPrefixOf]

theorem containsDots_join {sep : Char} {ps : List Str} (hs : sep ≠ '.')
    (h : ∀ p ∈ ps, containsStr p c!".." = false ∧ p.head? ≠ some '.') :
    containsStr (joinWith [sep] ps) c!".." = false := by
  induction ps with
  | nil => rfl
  | cons p qs ih =>
    cases qs with
    | nil => exact (h p (by simp)).1
    | cons q qs =>
      simp only [joinWith, List.append_assoc, List.cons_append, List.nil_append]
      rw [containsDots_append (by simpa using hs), containsDots_of_ne _ _ hs,
        ih (fun p hp => h p (List.mem_cons_of_mem _ hp)), (h p (by simp)).1]
      rfl

/-- the text before and after an occurrence of `..` that is the first one -/
theorem splitOnce_dots {a r : Str} (ha : containsStr a c!".." = false) (hl : a.getLast? ≠ some '.') :
    splitOnce c!".." (a ++ c!".." ++ r) = some (a, r) := by
  induction a with
  | nil => rfl
  | cons c cs ih =>
    rw [containsStr, Bool.or_eq_false_iff] at ha
    have hl' : cs.getLast? ≠ some '.' := by
      cases cs with
      | nil => simp
      | cons x xs => simpa [List.getLast?_cons_cons] using hl
    have hp : List.isPrefixOf c!".." ((c :: cs) ++ c!".." ++ r) = false := by
      cases cs with
      | nil =>
        have : c ≠ '.' := by simpa using hl
        simp [List.isPrefixOf, Ne.symm this]
      | cons x xs => have := ha.1; simpa [List.isPrefixOf] using this
    have := ih ha.2 hl'
    simp only [List.cons_append] at hp this ⊢
    rw [splitOnce, if_neg (by rw [hp]; decide), this]
    rfl

theorem splitOnce_char {d : Char} {a : Str} (h : d ∉ a) (r : Str) :
    splitOnce [d] (a ++ d :: r) = some (a, r) := by
  induction a with
  | nil => simp [splitOnce]
  | cons c cs ih =>
    have hc : d ≠ c := fun e => h (by simp [e])
    have := ih (fun hm => h (List.mem_cons_of_mem _ hm))
    simp [splitOnce, hc, this]

theorem mapM_some_map {α β γ : Type} {f : β → Option γ} {g : α → β} {k : α → γ} {l : List α}
    (h : ∀ x ∈ l, f (g x) = some (k x)) : (l.map g).mapM f = some (l.map k) := by
  induction l with
  | nil => rfl
  | cons x xs ih =>
    simp [List.mapM_cons, h x (by simp), ih (fun y hy => h y (List.mem_cons_of_mem _ hy))]

end Rez
