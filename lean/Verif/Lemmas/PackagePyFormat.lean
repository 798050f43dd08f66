/-
Lemmas about reading package.py: `str.format`.
-/
import Verif.Model.PackagePy
import Verif.Spec.PackagePy
import Verif.Props.Rex
import Verif.Lemmas.VersionExtra
import Verif.Lemmas.Requirement

namespace Rez.PyLemmas
open Rez.PackagePy
open Rez.Spec
open Rez.Spec.Py (Piece Scan)
open Rez.Rex (replaceAux replaceAll)
open Rez.Props.RexLemmas

/-- How a piece is written. -/
def src : Piece → Str
  | .char c => [c]
  | .opening => c!"{{"
  | .closing => c!"}}"
  | .place i => '{' :: (decimal i ++ c!"}")
  | .next => c!"{}"

/-- The pieces as the arguments `done` are put in place. -/
def mid (done : List Str) : Piece → Str
  | .char c => [c]
  | .opening => [openMark]
  | .closing => [closeMark]
  | .place i => (done[i]?).getD ('{' :: (decimal i ++ c!"}"))
  | .next => c!"{}"

/-- What has been read of an unfinished piece. -/
def pending : Scan → Str
  | .text => []
  | .opened => c!"{"
  | .closed => c!"}"
  | .place ds => '{' :: ds

/-- Plain characters are not braces. -/
def Proper (p : Piece) : Prop := ∀ c, p = .char c → c ≠ '{' ∧ c ≠ '}'

theorem scan_src : ∀ (s : Str) (st : Scan) (ps : List Piece), Py.scan st s = some ps →
    pending st ++ s = ps.flatMap src ∧ ∀ p ∈ ps, Proper p := by
  intro s
  induction s with
  | nil =>
    intro st ps h
    cases st with
    | text => rw [Py.scan] at h; cases h; exact ⟨rfl, fun _ h => by cases h⟩
    | opened => rw [Py.scan.eq_6 _ (by simp)] at h; cases h
    | closed => rw [Py.scan.eq_6 _ (by simp)] at h; cases h
    | place ds => rw [Py.scan.eq_6 _ (by simp)] at h; cases h
  | cons c s ih =>
    have step : ∀ (p : Piece) (ps : List Piece) (pre : Str), (Py.scan .text s).map (p :: ·) = some ps →
        pre = src p → Proper p → pre ++ s = ps.flatMap src ∧ ∀ q ∈ ps, Proper q := by
      intro p ps pre h hp hpr
      obtain ⟨qs, hq, rfl⟩ := Option.map_eq_some_iff.mp h
      have := ih .text qs hq
      rw [show pending .text = [] from rfl, List.nil_append] at this
      refine ⟨by rw [hp, List.flatMap_cons, ← this.1], fun q hq => ?_⟩
      rcases List.mem_cons.mp hq with rfl | hq
      · exact hpr
      · exact this.2 q hq
    intro st ps h
    cases st with
    | text =>
      rw [Py.scan] at h
      split at h
      · rename_i hc; subst hc; exact ih .opened ps h
      · split at h
        · rename_i hc; subst hc; exact ih .closed ps h
        · rename_i h1 h2
          exact step (.char c) ps [c] h rfl fun d hd => by cases hd; exact ⟨h1, h2⟩
    | opened =>
      rw [Py.scan] at h
      split at h
      · rename_i hc; subst hc; exact step .opening ps c!"{{" h rfl fun d hd => by cases hd
      · split at h
        · rename_i hc; subst hc; exact step .next ps c!"{}" h rfl fun d hd => by cases hd
        · split at h
          · exact ih (.place [c]) ps h
          · cases h
    | closed =>
      rw [Py.scan] at h
      split at h
      · rename_i hc; subst hc; exact step .closing ps c!"}}" h rfl fun d hd => by cases hd
      · cases h
    | place ds =>
      rw [Py.scan] at h
      split at h
      · rename_i hc
        subst hc
        split at h
        · rename_i hd
          have := step (.place (Rez.digitsVal ds)) ps ('{' :: (ds ++ c!"}")) h (by rw [src, hd]) fun d hd => by cases hd
          simpa [pending] using this
        · cases h
      · split at h
        · have := ih (.place (ds ++ [c])) ps h
          simpa [pending] using this
        · cases h

theorem digit_plain {c : Char} (h : isDigit c = true) : c ≠ '{' ∧ c ≠ '}' ∧ c ≠ openMark ∧ c ≠ closeMark := by
  refine ⟨?_, ?_, ?_, ?_⟩ <;> (rintro rfl; revert h; decide)

theorem decimal_plain (i : Nat) : '{' ∉ decimal i ∧ '}' ∉ decimal i := by
  have h := List.all_eq_true.mp (decimal_digits i)
  exact ⟨fun hm => (digit_plain (h _ hm)).1 rfl, fun hm => (digit_plain (h _ hm)).2.1 rfl⟩

theorem decimal_cons (i : Nat) : ∃ c t, decimal i = c :: t ∧ c ≠ '{' := by
  have hne := decimal_ne i
  have h := List.all_eq_true.mp (decimal_digits i)
  cases hd : decimal i with
  | nil => exact absurd hd hne
  | cons c t => exact ⟨c, t, rfl, (digit_plain (h c (hd ▸ List.mem_cons_self))).1⟩

/-- The template after `{{` has been set aside. -/
def half : Piece → Str
  | .opening => [openMark]
  | p => src p

theorem half_place (i : Nat) : half (.place i) = '{' :: (decimal i ++ c!"}") := rfl
theorem half_next : half .next = c!"{}" := rfl

theorem hide_open {ps : List Piece} (h : ∀ p ∈ ps, Proper p) :
    replaceAux c!"{{" [openMark] 0 (ps.flatMap src) = ps.flatMap half := by
  induction ps with
  | nil => rfl
  | cons p ps ih =>
    have ih := ih fun q hq => h q (List.mem_cons_of_mem _ hq)
    rw [List.flatMap_cons, List.flatMap_cons]
    cases p with
    | char c =>
      have hc := (h _ List.mem_cons_self c rfl).1
      rw [src, half, src, replace_pass (by simpa using fun e => hc e.symm), ih]
      simp
    | opening => rw [src, half, replace_hit _ _ _ (by simp), ih]
    | closing => rw [src, half, src, replace_pass (by simp), ih]; simp
    | place i =>
      obtain ⟨c, t, hd, hc⟩ := decimal_cons i
      have hp := (decimal_plain i).1
      rw [src, half_place, List.cons_append, replaceAux, if_neg (by rw [hd]; simp [List.isPrefixOf, hc.symm]),
        replace_pass (by
          intro hm
          rcases List.mem_append.mp hm with hm | hm
          · exact hp hm
          · simp at hm), ih]
      simp
    | next => rw [src, half_next, List.cons_append, replaceAux, if_neg (by simp [List.isPrefixOf]), replace_pass (by simp), ih]; simp

theorem half_head {ps : List Piece} (h : ∀ p ∈ ps, Proper p) (hs : ∀ q qs, ps = q :: qs → q ≠ .closing) :
    c!"}}".isPrefixOf ('}' :: ps.flatMap half) = false := by
  cases ps with
  | nil => rfl
  | cons q qs =>
    have hq := hs q qs rfl
    rw [List.flatMap_cons]
    cases q with
    | char c =>
      have hc := (h _ List.mem_cons_self c rfl).2
      simp [half, src, List.isPrefixOf, hc.symm]
    | opening => rw [half]; rfl
    | closing => exact absurd rfl hq
    | place i => rw [half_place]; simp [List.isPrefixOf]
    | next => rw [half_next]; simp [List.isPrefixOf]

theorem hide_close {ps : List Piece} (h : ∀ p ∈ ps, Proper p) (hs : Py.steady ps = true) :
    replaceAux c!"}}" [closeMark] 0 (ps.flatMap half) = ps.flatMap (mid []) := by
  induction ps with
  | nil => rfl
  | cons p ps ih =>
    have h' := fun q hq => h q (List.mem_cons_of_mem p hq)
    rw [List.flatMap_cons, List.flatMap_cons]
    cases p with
    | char c =>
      rw [Py.steady] at hs
      · have ih := ih h' hs
        have hc := (h _ List.mem_cons_self c rfl).2
        rw [half, src, mid, replace_pass (by simpa using fun e => hc e.symm), ih]
        · simp
      · simp
      · simp
    | opening =>
      rw [Py.steady] at hs
      · have ih := ih h' hs
        rw [half, mid, replace_pass (by decide), ih]
      · simp
      · simp
    | closing =>
      rw [Py.steady] at hs
      · have ih := ih h' hs
        rw [half, src, mid, replace_hit _ _ _ (by simp), ih]
        simp
      · simp
      · simp
    | place i =>
      have hnc : ∀ q qs, ps = q :: qs → q ≠ .closing := by
        rintro q qs rfl rfl
        simp [Py.steady] at hs
      have hs' : Py.steady ps = true := by
        rw [Py.steady] at hs
        · exact hs
        · simp
        · intro _ _ _ hq
          exact hnc _ _ hq rfl
      have ih := ih h' hs'
      have hp := (decimal_plain i).2
      have e1 : half (.place i) ++ ps.flatMap half = ('{' :: decimal i) ++ ('}' :: ps.flatMap half) := by
        simp [half, src]
      rw [e1, replace_pass (by
        intro hm
        rcases List.mem_cons.mp hm with hm | hm
        · cases hm
        · exact hp hm), replaceAux, half_head h' hnc, if_neg (by simp), ih]
      simp [mid]
    | next => simp [Py.steady] at hs

/-- A text without braces and marks. -/
def Calm (a : Str) : Prop := ∀ c ∈ a, c ≠ openMark ∧ c ≠ closeMark ∧ c ≠ '{' ∧ c ≠ '}'

theorem put_one {done : List Str} {a : Str} (hd : ∀ x ∈ done, Calm x) {ps : List Piece}
    (h : ∀ p ∈ ps, Proper p) (hn : .next ∉ ps) :
    formatPut (ps.flatMap (mid done)) done.length a = ps.flatMap (mid (done ++ [a])) := by
  unfold formatPut replaceAll
  induction ps with
  | nil => rfl
  | cons p ps ih =>
    rw [List.mem_cons, not_or] at hn
    have ih := ih (fun q hq => h q (List.mem_cons_of_mem p hq)) hn.2
    rw [List.flatMap_cons, List.flatMap_cons]
    cases p with
    | char c =>
      have hc := (h _ List.mem_cons_self c rfl).1
      rw [mid, mid, List.cons_append, replace_pass (by simpa using fun e => hc e.symm), ← List.cons_append, ih]
    | opening => rw [mid, mid, List.cons_append, replace_pass (by decide), ← List.cons_append, ih]
    | closing => rw [mid, mid, List.cons_append, replace_pass (by decide), ← List.cons_append, ih]
    | next => exact absurd rfl hn.1
    | place i =>
      rw [mid, mid]
      by_cases hi : i < done.length
      · have hx := hd _ (List.getElem_mem hi)
        rw [List.getElem?_append_left hi, List.getElem?_eq_getElem hi, Option.getD_some, List.cons_append,
          replace_pass (fun hm => (hx _ hm).2.2.1 rfl), ← List.cons_append, ih]
      · rw [List.getElem?_eq_none (by omega), Option.getD_none]
        by_cases he : i = done.length
        · subst he
          rw [List.getElem?_append_right (by omega), Nat.sub_self]
          have e1 : ('{' :: (decimal done.length ++ c!"}")) ++ ps.flatMap (mid done) =
              ('{' :: decimal done.length ++ c!"}") ++ ps.flatMap (mid done) := by simp
          rw [e1, replace_hit _ _ _ (by simp), ih]
          rfl
        · rw [List.getElem?_append_right (by omega), List.getElem?_eq_none (by simp; omega), Option.getD_none]
          have hnp : ('{' :: decimal done.length ++ c!"}").isPrefixOf
              ('{' :: (decimal i ++ c!"}") ++ ps.flatMap (mid done)) = false := by
            rw [Bool.eq_false_iff]
            intro hpre
            apply he
            have h2 : (decimal done.length ++ c!"}").isPrefixOf (decimal i ++ '}' :: ps.flatMap (mid done)) = true := by
              simpa [List.isPrefixOf] using hpre
            exact (decimal_inj (brace_prefix (decimal_plain _).2 (decimal_plain _).2 h2)).symm
          rw [List.cons_append] at hnp ⊢
          rw [List.cons_append] at hnp ⊢
          rw [replaceAux, hnp, if_neg (by simp), replace_pass (by
              intro hm
              rcases List.mem_append.mp hm with hm | hm
              · exact (decimal_plain i).1 hm
              · simp at hm)]
          have := ih
          rw [show ('{' :: decimal done.length ++ c!"}") = '{' :: (decimal done.length ++ c!"}") from rfl] at this
          rw [this]
          simp

/-- The arguments put in place one after the other. -/
def putAll (i : Nat) (text : Str) : List Str → Str
  | [] => text
  | a :: as => putAll (i + 1) (formatPut text i a) as

theorem put_all {ps : List Piece} (h : ∀ p ∈ ps, Proper p) (hn : .next ∉ ps) (rest : List Str) :
    ∀ done : List Str, (∀ x ∈ done ++ rest, Calm x) →
      putAll done.length (ps.flatMap (mid done)) rest = ps.flatMap (mid (done ++ rest)) := by
  induction rest with
  | nil => intro done _; rw [putAll, List.append_nil]
  | cons a rest ih =>
    intro done hd
    rw [putAll, put_one (fun x hx => hd x (List.mem_append_left _ hx)) h hn]
    have := ih (done ++ [a]) (by simpa using hd)
    rw [List.length_append] at this
    rw [show done.length + 1 = done.length + [a].length from rfl, this]
    simp

theorem steady_next {ps : List Piece} (h : Py.steady ps = true) : .next ∉ ps := by
  induction ps with
  | nil => simp
  | cons p ps ih =>
    intro hm0
    rcases List.mem_cons.mp hm0 with rfl | hm
    · simp [Py.steady] at h
    · clear hm0
      cases p with
      | next => simp [Py.steady] at h
      | char c => rw [Py.steady] at h; exact ih h hm; simp; simp
      | opening => rw [Py.steady] at h; exact ih h hm; simp; simp
      | closing => rw [Py.steady] at h; exact ih h hm; simp; simp
      | place i =>
        cases ps with
        | nil => cases hm
        | cons q qs =>
          by_cases hq : q = .closing
          · subst hq; simp [Py.steady] at h
          · rw [Py.steady] at h
            · exact ih h hm
            · simp
            · rintro _ _ _ hh
              cases hh
              exact hq rfl

/-- The pieces once all is in place, with the marks still there. -/
theorem fill_mid {args : List Str} {ps : List Piece} (hn : .next ∉ ps) :
    ∀ {n : Nat} {t : Str}, Py.fill args n ps = some t →
      (∀ c, Piece.char c ∈ ps → c ≠ openMark ∧ c ≠ closeMark) → (∀ x ∈ args, Calm x) →
      formatShow (ps.flatMap (mid args)) = t := by
  intro n t h hm ha
  unfold formatShow replaceAll
  have key : ∀ ps : List Piece, .next ∉ ps → ∀ (t : Str), Py.fill args n ps = some t →
      (∀ c, Piece.char c ∈ ps → c ≠ openMark ∧ c ≠ closeMark) →
      ∃ u, replaceAux [openMark] c!"{" 0 (ps.flatMap (mid args)) = u ∧ replaceAux [closeMark] c!"}" 0 u = t := by
    intro ps
    induction ps with
    | nil => intro _ t h _; simp only [Py.fill] at h; cases h; exact ⟨[], rfl, rfl⟩
    | cons p ps ih =>
      intro hn t h hm
      rw [List.mem_cons, not_or] at hn
      have hm' : ∀ c, Piece.char c ∈ ps → c ≠ openMark ∧ c ≠ closeMark := fun c hc => hm c (List.mem_cons_of_mem _ hc)
      rw [List.flatMap_cons]
      cases p with
      | char c =>
        obtain ⟨x, hx, rfl⟩ := Option.map_eq_some_iff.mp h
        obtain ⟨u, h1, h2⟩ := ih hn.2 x hx hm'
        have hc := hm c List.mem_cons_self
        refine ⟨c :: u, ?_, ?_⟩
        · rw [mid, replace_pass (by simpa using fun e => hc.1 e.symm), h1]; rfl
        · rw [show c :: u = [c] ++ u from rfl, replace_pass (by simpa using fun e => hc.2 e.symm), h2]; rfl
      | opening =>
        obtain ⟨x, hx, rfl⟩ := Option.map_eq_some_iff.mp h
        obtain ⟨u, h1, h2⟩ := ih hn.2 x hx hm'
        refine ⟨'{' :: u, ?_, ?_⟩
        · rw [mid, replace_hit _ _ _ (by simp), h1]; rfl
        · rw [show '{' :: u = ['{'] ++ u from rfl, replace_pass (by decide), h2]; rfl
      | closing =>
        obtain ⟨x, hx, rfl⟩ := Option.map_eq_some_iff.mp h
        obtain ⟨u, h1, h2⟩ := ih hn.2 x hx hm'
        refine ⟨closeMark :: u, ?_, ?_⟩
        · rw [mid, replace_pass (by decide), h1]; rfl
        · rw [show closeMark :: u = [closeMark] ++ u from rfl, replace_hit _ _ _ (by simp), h2]; rfl
      | place i =>
        rw [Py.fill] at h
        obtain ⟨a, hi, h⟩ := Option.bind_eq_some_iff.mp h
        obtain ⟨x, hx, rfl⟩ := Option.map_eq_some_iff.mp h
        obtain ⟨u, h1, h2⟩ := ih hn.2 x hx hm'
        have hca := ha a (List.mem_of_getElem? hi)
        refine ⟨a ++ u, ?_, ?_⟩
        · rw [mid, hi, Option.getD_some, replace_pass (fun hm => (hca _ hm).1 rfl), h1]
        · rw [replace_pass (fun hm => (hca _ hm).2.1 rfl), h2]
      | next => exact absurd rfl hn.1
  obtain ⟨u, h1, h2⟩ := key ps hn t h hm
  rw [h1, h2]

theorem format_agrees {s : Str} {args : List Str} {t : Str} (h : Py.format s args = some t) (hc : Py.calm s args = true) :
    formatShow (putAll 0 (formatHide s) args) = t := by
  unfold Py.format at h
  obtain ⟨ps, hs, hf⟩ := Option.bind_eq_some_iff.mp h
  obtain ⟨hsrc, hprop⟩ := scan_src s .text ps hs
  rw [show pending .text = [] from rfl, List.nil_append] at hsrc
  unfold Py.calm at hc
  rw [hs] at hc
  simp only [Bool.and_eq_true, Option.elim_some] at hc
  obtain ⟨⟨h1, h2⟩, h3⟩ := hc
  have hmarks : ∀ c ∈ s, c ≠ openMark ∧ c ≠ closeMark := by
    intro c hc
    have := List.all_eq_true.mp h1 c hc
    simpa [Py.marks, openMark, closeMark] using this
  have hargs : ∀ x ∈ args, Calm x := by
    intro x hx c hc
    have := List.all_eq_true.mp (List.all_eq_true.mp h2 x hx) c hc
    simp [Py.marks] at this
    exact ⟨this.1.1.1, this.1.1.2, this.1.2, this.2⟩
  have hn := steady_next h3
  have hh : formatHide s = ps.flatMap (mid []) := by
    unfold formatHide replaceAll
    rw [hsrc, hide_open hprop, hide_close hprop h3]
  rw [hh]
  have := put_all hprop hn args [] (by simpa using hargs)
  rw [List.length_nil, List.nil_append] at this
  rw [this]
  refine fill_mid hn hf (fun c hc => hmarks c ?_) hargs
  rw [hsrc, List.mem_flatMap]
  exact ⟨_, hc, by simp [src]⟩

end Rez.PyLemmas
