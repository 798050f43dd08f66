import Verif.Lemmas.Text
import Verif.Spec.SelfUpdate
import Verif.Lemmas.Words
import Mathlib.Tactic.Common
/-!
# C217 Replacing the program by a release
-/
namespace Rez.Props
open Rez Rez.SelfUpdate Rez.SelfUpdate.Spec

/-! ## The checksum of an archive -/

theorem hex_iff (c : Char) : isHex c = true ↔ c ∈ c!"0123456789abcdefABCDEF" := by
  constructor
  · intro h
    have hn : c = Char.ofNat c.toNat := (Char.ofNat_toNat c).symm
    have : (48 ≤ c.toNat ∧ c.toNat ≤ 57) ∨ (97 ≤ c.toNat ∧ c.toNat ≤ 102) ∨ (65 ≤ c.toNat ∧ c.toNat ≤ 70) := by
      simp only [isHex, isDigit, Bool.or_eq_true, Bool.and_eq_true, decide_eq_true_eq] at h
      have h48 : '0'.toNat = 48 := rfl
      have h57 : '9'.toNat = 57 := rfl
      omega
    rw [hn]
    generalize c.toNat = n at this
    have key : ∀ n ≤ 102, ((48 ≤ n ∧ n ≤ 57) ∨ (97 ≤ n ∧ n ≤ 102) ∨ (65 ≤ n ∧ n ≤ 70)) → Char.ofNat n ∈ c!"0123456789abcdefABCDEF" := by
      decide
    exact key n (by omega) this
  · have key : ∀ c ∈ c!"0123456789abcdefABCDEF", isHex c = true := by decide
    exact key c

/-- The checksum used for an archive is the one of the first line about it, which must be well formed; there is none otherwise. -/
theorem C217_checksum (text name h : Str) : checksumFor text name = some h ↔ Listed (SelfUpdate.linesOf text) name h := by
  unfold checksumFor
  generalize SelfUpdate.linesOf text = lines
  induction lines with
  | nil =>
    constructor
    · intro hh; cases hh
    · rintro ⟨b, l, c, x, h1, -⟩; simp at h1
  | cons line lines ih =>
    have skip : ¬About name line → (Listed lines name h ↔ Listed (line :: lines) name h) := by
      intro hn
      constructor
      · rintro ⟨b, l, c, x, h1, h2, h3⟩
        exact ⟨line :: b, l, c, x, by simp [h1], by intro l' hl'; rcases List.mem_cons.mp hl' with r | r; exact r ▸ hn; exact h2 _ r, h3⟩
      · rintro ⟨b, l, c, x, h1, h2, h3⟩
        cases b with
        | nil =>
          simp only [List.nil_append, List.cons.injEq] at h1
          exact absurd (by simp [About, h1.1, h3.1]) hn
        | cons b0 b =>
          simp only [List.cons_append, List.cons.injEq] at h1
          exact ⟨b, l, c, x, h1.2, fun l' hl' => h2 _ (List.mem_cons_of_mem _ hl'), h3⟩
    rw [checksumIn]
    rcases hw : splitWs line with _ | ⟨hash, _ | ⟨file, more⟩⟩
    · simp only; rw [ih]; exact skip (by simp [About, hw])
    · simp only; rw [ih]; exact skip (by simp [About, hw])
    · simp only
      by_cases hf : file = name
      · subst hf
        simp only [ne_eq, not_true, if_false]
        split
        · rename_i hbad
          constructor
          · intro hh; cases hh
          · rintro ⟨b, l, c, x, h1, h2, h3, h4, h5, -⟩
            cases b with
            | nil =>
              simp only [List.nil_append, List.cons.injEq] at h1
              rw [← h1.1, hw] at h3
              simp only [List.cons.injEq] at h3
              obtain ⟨rfl, -, rfl⟩ := h3
              have : hash.all isHex = true := List.all_eq_true.mpr fun c hc => (hex_iff c).2 (h5 c hc)
              simp [h4, this] at hbad
            | cons b0 b =>
              simp only [List.cons_append, List.cons.injEq] at h1
              exact absurd (by simp [About, ← h1.1, hw]) (h2 b0 (by simp))
        · rename_i hgood
          simp only [Bool.or_eq_true, not_or, Bool.not_eq_true, decide_eq_true_eq, Bool.not_eq_false', List.all_eq_true,
            List.isEmpty_iff, ne_eq, not_not] at hgood
          constructor
          · intro hh
            exact ⟨[], line, lines, hash, rfl, by simp, by rw [hw, hgood.1.1], hgood.1.2, fun c hc => (hex_iff c).1 (hgood.2 c hc), (Option.some.inj hh).symm⟩
          · rintro ⟨b, l, c, x, h1, h2, h3, h4, h5, h6⟩
            cases b with
            | nil =>
              simp only [List.nil_append, List.cons.injEq] at h1
              rw [← h1.1, hw] at h3
              simp only [List.cons.injEq] at h3
              rw [h6, h3.1]
            | cons b0 b =>
              simp only [List.cons_append, List.cons.injEq] at h1
              exact absurd (by simp [About, ← h1.1, hw]) (h2 b0 (by simp))
      · simp only [ne_eq, hf, not_false_eq_true, if_true]
        rw [ih]
        exact skip (by simp [About, hw, hf])

theorem isProgram_iff (p : Path) : isProgram p = true ↔ Program p := by
  unfold isProgram Program
  simp only [Bool.or_eq_true, beq_iff_eq]
  constructor
  · rintro (h | h)
    · exact ⟨p.dropLast, Or.inl (by rw [List.getLast?_eq_some_iff] at h; obtain ⟨q, rfl⟩ := h; simp)⟩
    · exact ⟨p.dropLast, Or.inr (by rw [List.getLast?_eq_some_iff] at h; obtain ⟨q, rfl⟩ := h; simp)⟩
  · rintro ⟨d, rfl | rfl⟩ <;> simp

theorem archive_not_program (t : Str) : isProgram [archiveName t] = false := by
  have h1 : archiveName t ≠ c!"rez-next" := by
    intro h
    have := congrArg List.length h
    simp [archiveName] at this
  have h2 : archiveName t ≠ c!"rez-next.exe" := by
    intro h
    have := congrArg List.length h
    simp [archiveName] at this
  simp [isProgram, h1, h2]

/-! ## Steps -/

theorem runSteps_append {B : Type} (l m : List (Step B)) (w : World B) : runSteps (l ++ m) w = runSteps m (runSteps l w) := by
  simp [runSteps]

theorem mem_mset_su {B : Type} {m : List (Path × B)} {p q : Path} {b c : B} (h : (q, c) ∈ mset m p b) :
    (q = p ∧ c = b) ∨ (q, c) ∈ m := by
  simp only [mset, mdel, List.mem_cons, Prod.mk.injEq, List.mem_filter] at h
  tauto

/-- Steps that only write. -/
def onlyWrites {B : Type} (l : List (Step B)) : Prop := ∀ s ∈ l, ∃ p b, s = Step.write p b

theorem writes_exe {B : Type} {l : List (Step B)} (h : ∀ s ∈ l, ∀ p b, s ≠ Step.install p b) (w : World B) :
    (runSteps l w).exe = w.exe := by
  induction l generalizing w with
  | nil => rfl
  | cons s l ih =>
    have h0 := h s (by simp)
    have := ih (fun s' hs' => h s' (List.mem_cons_of_mem _ hs')) (s.apply w)
    rw [show runSteps (s :: l) w = runSteps l (s.apply w) from rfl, this]
    cases s with
    | install p b => exact absurd rfl (h0 p b)
    | write p b => rfl
    | clear => rfl

theorem files_temp {B : Type} (files : List (Path × B)) (w : World B) {q : Path} {c : B}
    (h : (q, c) ∈ (runSteps (files.map fun f => Step.write f.1 f.2) w).temp) : (q, c) ∈ files ∨ (q, c) ∈ w.temp := by
  induction files generalizing w with
  | nil => exact Or.inr h
  | cons f files ih =>
    rcases ih _ (show (q, c) ∈ (runSteps (files.map fun f => Step.write f.1 f.2) ((Step.write f.1 f.2).apply w)).temp from h) with r | r
    · exact Or.inl (List.mem_cons_of_mem _ r)
    · rcases mem_mset_su r with ⟨rfl, rfl⟩ | r
      · exact Or.inl (by simp)
      · exact Or.inr r

/-- The last write of a file stays. -/
theorem files_kept {B : Type} (files : List (Path × B)) (w : World B) {q : Path} {c : B} (hn : (files.map Prod.fst).Nodup)
    (h : (q, c) ∈ files) : (q, c) ∈ (runSteps (files.map fun f => Step.write f.1 f.2) w).temp := by
  have keep : ∀ (fs : List (Path × B)) (w : World B), q ∉ fs.map Prod.fst → (q, c) ∈ w.temp →
      (q, c) ∈ (runSteps (fs.map fun f => Step.write f.1 f.2) w).temp := by
    intro fs
    induction fs with
    | nil => intro w _ h; exact h
    | cons f fs ih =>
      intro w hq hm
      simp only [List.map_cons, List.mem_cons, not_or] at hq
      refine ih ((Step.write f.1 f.2).apply w) hq.2 ?_
      simp only [Step.apply, mset, mdel, List.mem_cons, List.mem_filter]
      exact Or.inr ⟨hm, by simpa using hq.1⟩
  induction files generalizing w with
  | nil => cases h
  | cons f files ih =>
    simp only [List.map_cons, List.nodup_cons] at hn
    rcases List.mem_cons.mp h with rfl | r
    · exact keep files ((Step.write q c).apply w) hn.1 (by simp [Step.apply, mset])
    · exact ih ((Step.write f.1 f.2).apply w) hn.2 r

/-! ## What replaces the program -/

/-- What the steps of the command are, for an archive. -/
theorem install_cases {B : Type} (e : Env B) (w : World B) (v : Str) (b : B) :
    ((install e w v b).2 = .failed ∧ ∀ s ∈ (install e w v b).1, ∀ p c, s ≠ Step.install p c) ∨
    ∃ files f, e.unpack b = some files ∧
      ((e.walk (runSteps (files.map fun f => Step.write f.1 f.2) w).temp).find? fun f => isProgram f.1) = some f ∧
      e.self = true ∧ e.movable = true ∧
      install e w v b = ((files.map fun f => Step.write f.1 f.2) ++ [.install f.1 f.2, .clear], .updated v) := by
  unfold install
  rcases hu : e.unpack b with _ | files
  · exact Or.inl ⟨rfl, by simp⟩
  · simp only
    split
    · refine Or.inl ⟨rfl, ?_⟩
      intro s hs p c
      simp only [List.mem_append, List.mem_map, List.mem_singleton] at hs
      rcases hs with ⟨g, -, rfl⟩ | rfl <;> simp
    · rename_i f hf
      by_cases hm : (!e.self || !e.movable) = true
      · simp only [hm, if_true]
        refine Or.inl ⟨trivial, ?_⟩
        intro s hs p c
        simp only [List.mem_map] at hs
        obtain ⟨g, -, rfl⟩ := hs
        simp
      · rw [if_neg hm]
        refine Or.inr ⟨files, f, rfl, hf, ?_, ?_, rfl⟩ <;> (revert hm; cases e.self <;> cases e.movable <;> simp)

/-- The two ways the command goes: it never replaces the program and does not say that it did, or it unpacks a trusted archive,
installs the first file of the program's name and says so. -/
theorem execute_cases {B : Type} (e : Env B) (a : Args) (w : World B) :
    ((∀ v, (execute e a w).2 ≠ .updated v) ∧ ∀ s ∈ (execute e a w).1, ∀ p c, s ≠ Step.install p c) ∨
    ∃ v t b files f s1 s2, Wanted e a v ∧ e.target = some t ∧ e.downloader = true ∧ e.temp = true ∧ Trusted e v t b ∧
      e.unpack b = some files ∧ e.self = true ∧ e.movable = true ∧
      s1 = Step.write [archiveName t] b ∧ (∃ text, s2 = Step.write [c!"checksums-sha256.txt"] (e.file text)) ∧
      ((e.walk (runSteps (s1 :: s2 :: files.map fun f => Step.write f.1 f.2) w).temp).find? fun f => isProgram f.1) = some f ∧
      execute e a w = (s1 :: s2 :: (files.map fun f => Step.write f.1 f.2) ++ [.install f.1 f.2, .clear], .updated v) := by
  unfold execute
  by_cases hd : e.downloader = true
  swap
  · exact Or.inl (by simp [hd])
  rcases hv : targetVersion e a with _ | v
  · exact Or.inl (by simp [hd])
  simp only [hd, Bool.not_true, Bool.false_eq_true, if_false]
  by_cases hc : a.check = true
  · refine Or.inl ?_
    simp only [hc, if_true]
    constructor
    · intro v'; split <;> simp
    · simp
  simp only [hc]
  by_cases hf : v = e.current ∧ a.force = false
  · exact Or.inl (by simp [hf])
  rw [if_neg hf]
  rcases ht : e.target with _ | t
  · exact Or.inl (by simp)
  simp only
  by_cases htm : e.temp = true
  swap
  · exact Or.inl (by simp [htm])
  simp only [htm, Bool.not_true, Bool.false_eq_true, if_false]
  unfold download
  rcases ha : e.archive v (archiveName t) with _ | b
  · exact Or.inl (by simp)
  simp only
  rcases hs : e.sums v with _ | text
  · exact Or.inl (by simp)
  simp only
  rcases hx : checksumFor text (archiveName t) with _ | expected
  · exact Or.inl (by simp)
  simp only
  by_cases hsha : e.sha b = expected
  swap
  · exact Or.inl (by simp [hsha])
  simp only [hsha, ne_eq, not_true, if_false]
  rcases install_cases e (runSteps [Step.write [archiveName t] b, Step.write [c!"checksums-sha256.txt"] (e.file text)] w) v b with
    ⟨h1, h2⟩ | ⟨files, f, h1, h2, h3, h4, h5⟩
  · refine Or.inl ⟨by intro v'; rw [h1]; simp, ?_⟩
    intro s hs p c
    simp only [List.mem_cons] at hs
    rcases hs with rfl | rfl | hs
    · simp
    · simp
    · exact h2 s hs p c
  · refine Or.inr ⟨v, t, b, files, f, _, _, ⟨hv, by simpa using hc, ?_⟩, rfl, trivial, trivial, ⟨ha, text, hs, ?_⟩, h1, h3, h4, rfl,
      ⟨text, rfl⟩, h2, by rw [h5]; rfl⟩
    · by_cases hvc : v = e.current
      · right; by_contra hfo; exact hf ⟨hvc, by simpa using hfo⟩
      · exact Or.inl hvc
    · rw [hsha]; exact (C217_checksum text (archiveName t) expected).mp hx

/-- A file found below the temporary directory was in the archive or there before. -/
theorem found_origin {B : Type} (e : Env B) (hw : ∀ l, ∀ f ∈ e.walk l, f ∈ l) (w : World B) {t : Str} {b : B} {text : Str}
    {files : List (Path × B)} {f : Path × B}
    (h : ((e.walk (runSteps (Step.write [archiveName t] b :: Step.write [c!"checksums-sha256.txt"] (e.file text) ::
      files.map fun f => Step.write f.1 f.2) w).temp).find? fun f => isProgram f.1) = some f) :
    Program f.1 ∧ (f ∈ files ∨ f ∈ w.temp) := by
  have hp : isProgram f.1 = true := by simpa using List.find?_some h
  have hm := hw _ f (List.mem_of_find?_eq_some h)
  refine ⟨(isProgram_iff f.1).mp hp, ?_⟩
  have hm' : (f.1, f.2) ∈ (runSteps (files.map fun f => Step.write f.1 f.2)
      ((Step.write [c!"checksums-sha256.txt"] (e.file text)).apply ((Step.write [archiveName t] b).apply w))).temp := hm
  rcases files_temp files _ hm' with r | r
  · exact Or.inl r
  · rcases mem_mset_su r with ⟨r1, -⟩ | r
    · rw [r1] at hp; exact absurd hp (by decide)
    · rcases mem_mset_su r with ⟨r1, -⟩ | r
      · rw [r1, archive_not_program] at hp; cases hp
      · exact Or.inr r

/-- Wherever the command stops, the program is what it was, or it is, whole, a file of the program's name that was unpacked from the
archive of the wanted release, whose checksum is the listed one, or that lay in the temporary directory before. -/
theorem C217_crash {B : Type} (e : Env B) (hw : ∀ l, ∀ f ∈ e.walk l, f ∈ l) (a : Args) (w : World B) (k : Nat) :
    let s := runSteps ((execute e a w).1.take k) w
    s.exe = w.exe ∨ ∃ v t b files p, Wanted e a v ∧ e.target = some t ∧ Trusted e v t b ∧ e.unpack b = some files ∧ Program p ∧
      ((p, s.exe) ∈ files ∨ (p, s.exe) ∈ w.temp) := by
  intro s
  rcases execute_cases e a w with ⟨-, h⟩ | ⟨v, t, b, files, f, s1, s2, h1, h2, -, -, h5, h6, -, -, rfl, ⟨text, rfl⟩, hf, hx⟩
  · exact Or.inl (writes_exe (fun s hs => h s (List.mem_of_mem_take hs)) w)
  · obtain ⟨hp, ho⟩ := found_origin e hw w hf
    have hs : s = runSteps ((execute e a w).1.take k) w := rfl
    rw [hx] at hs
    simp only at hs
    rw [List.take_append, runSteps_append] at hs
    set l := (Step.write [archiveName t] b :: Step.write [c!"checksums-sha256.txt"] (e.file text) ::
      files.map fun f => Step.write f.1 f.2) with hl
    have hwr : (runSteps (l.take k) w).exe = w.exe := by
      apply writes_exe
      intro s' hs' p c
      have := List.mem_of_mem_take hs'
      simp only [hl, List.mem_cons, List.mem_map] at this
      rcases this with rfl | rfl | ⟨g, -, rfl⟩ <;> simp
    rcases hk : k - l.length with _ | _ | n
    · left; rw [hs, hk]; exact hwr
    all_goals
      right
      have he : s.exe = f.2 := by rw [hs, hk]; simp [runSteps, Step.apply]
      exact ⟨v, t, b, files, f.1, h1, h2, h5, h6, hp, by rw [he]; exact ho⟩

/-- If no file of the program's name lay in the temporary directory, what is installed comes from the trusted archive. -/
theorem C217_fresh {B : Type} (e : Env B) (hw : ∀ l, ∀ f ∈ e.walk l, f ∈ l) (a : Args) (w : World B)
    (hfresh : ∀ f ∈ w.temp, ¬Program f.1) (k : Nat) :
    let s := runSteps ((execute e a w).1.take k) w
    s.exe = w.exe ∨ ∃ v t b files p, Wanted e a v ∧ e.target = some t ∧ Trusted e v t b ∧ e.unpack b = some files ∧ Program p ∧
      (p, s.exe) ∈ files := by
  intro s
  rcases C217_crash e hw a w k with h | ⟨v, t, b, files, p, h1, h2, h3, h4, h5, h6 | h6⟩
  · exact Or.inl h
  · exact Or.inr ⟨v, t, b, files, p, h1, h2, h3, h4, h5, h6⟩
  · exact absurd h5 (hfresh _ h6)

/-- If the command does not say that it updated, the program is what it was. -/
theorem C217_unchanged {B : Type} (e : Env B) (a : Args) (w : World B) (k : Nat) (h : ∀ v, (execute e a w).2 ≠ .updated v) :
    (runSteps ((execute e a w).1.take k) w).exe = w.exe := by
  rcases execute_cases e a w with ⟨-, h'⟩ | ⟨v, t, b, files, f, s1, s2, -, -, -, -, -, -, -, -, -, -, -, hx⟩
  · exact writes_exe (fun s hs => h' s (List.mem_of_mem_take hs)) w
  · exact absurd (by rw [hx]) (h v)

/-- If it says that it updated, it did, and the temporary directory is gone. -/
theorem C217_updated {B : Type} (e : Env B) (hw : ∀ l, ∀ f ∈ e.walk l, f ∈ l) (a : Args) (w : World B) (v : Str)
    (h : (execute e a w).2 = .updated v) :
    let s := runSteps (execute e a w).1 w
    s.temp = [] ∧ ∃ t b files p, Wanted e a v ∧ e.target = some t ∧ Trusted e v t b ∧ e.unpack b = some files ∧ Program p ∧
      ((p, s.exe) ∈ files ∨ (p, s.exe) ∈ w.temp) := by
  intro s
  rcases execute_cases e a w with ⟨h', -⟩ | ⟨v', t, b, files, f, s1, s2, h1, h2, -, -, h5, h6, -, -, rfl, ⟨text, rfl⟩, hf, hx⟩
  · exact absurd h (h' v)
  · have hv : v' = v := by rw [hx] at h; simpa using h
    subst hv
    obtain ⟨hp, ho⟩ := found_origin e hw w hf
    have hs : s = runSteps (execute e a w).1 w := rfl
    rw [hx] at hs
    simp only at hs
    rw [runSteps_append] at hs
    refine ⟨by rw [hs]; rfl, t, b, files, f.1, h1, h2, h5, h6, hp, ?_⟩
    have he : s.exe = f.2 := by rw [hs]; rfl
    rw [he]; exact ho

/-- When everything is there, the update is made: the program becomes the one file of its name in the archive. -/
theorem C217_installs {B : Type} (e : Env B) (hw : ∀ l f, f ∈ e.walk l ↔ f ∈ l) (a : Args) (w : World B) {v t : Str} {b : B}
    {files : List (Path × B)} {p : Path} {c : B} (hfresh : ∀ f ∈ w.temp, ¬Program f.1) (hwant : Wanted e a v)
    (hd : e.downloader = true) (ht : e.target = some t) (htmp : e.temp = true) (htr : Trusted e v t b)
    (hu : e.unpack b = some files) (hn : (files.map Prod.fst).Nodup) (hp : Program p) (hm : (p, c) ∈ files)
    (hone : ∀ f ∈ files, Program f.1 → f = (p, c)) (hself : e.self = true) (hmv : e.movable = true) :
    (execute e a w).2 = .updated v ∧ (runSteps (execute e a w).1 w).exe = c ∧ (runSteps (execute e a w).1 w).temp = [] := by
  obtain ⟨hv, hc, hf⟩ := hwant
  obtain ⟨ha, text, hs, hl⟩ := htr
  have hx := (C217_checksum text (archiveName t) (e.sha b)).mpr hl
  have hnf : ¬(v = e.current ∧ a.force = false) := by
    rintro ⟨r1, r2⟩
    rcases hf with r | r
    · exact r r1
    · rw [r2] at r; cases r
  have hex : (execute e a w).2 = .updated v := by
    unfold execute
    simp only [hd, Bool.not_true, Bool.false_eq_true, if_false, hv, hc, hnf, ht, htmp, download, ha, hs, hx, ne_eq, not_true]
    unfold install
    simp only [hu]
    split
    · rename_i hfd
      have := List.find?_eq_none.mp hfd (p, c) ((hw _ _).mpr (files_kept files _ hn hm))
      exact absurd ((isProgram_iff p).mpr hp) this
    · simp [hself, hmv]
  have hwl : ∀ l, ∀ f ∈ e.walk l, f ∈ l := fun l f hf => (hw l f).mp hf
  obtain ⟨h1, t', b', files', p', hw', ht', htr', hu', hp', ho⟩ := C217_updated e hwl a w v hex
  refine ⟨hex, ?_, h1⟩
  rw [ht] at ht'; cases ht'
  have hb : b' = b := by have := htr'.1; rw [ha] at this; exact (Option.some.inj this).symm
  subst hb
  rw [hu] at hu'; cases hu'
  rcases ho with r | r
  · exact congrArg Prod.snd (hone _ r hp')
  · exact absurd hp' (hfresh _ r)

/-- Asking only whether there is an update changes nothing, and the answer is that there is one unless the versions are the same
text. -/
theorem C217_check {B : Type} (e : Env B) (a : Args) (w : World B) (hc : a.check = true) :
    (execute e a w).1 = [] ∧
      ((execute e a w).2 = .upToDate ↔ e.downloader = true ∧ targetVersion e a = some e.current) ∧
      ∀ v, (execute e a w).2 = .available v ↔ e.downloader = true ∧ targetVersion e a = some v ∧ v ≠ e.current := by
  unfold execute
  by_cases hd : e.downloader = true
  swap
  · simp [hd]
  rcases hv : targetVersion e a with _ | v
  · simp [hd]
  · simp only [hd, hc, Bool.not_true, Bool.false_eq_true, if_false, if_true, true_and]
    by_cases h : v = e.current
    · simp only [h, if_true]
      refine ⟨by simp, fun v' => ?_⟩
      constructor
      · intro hh; cases hh
      · rintro ⟨r1, r2⟩; exact absurd (Option.some.inj r1).symm r2
    · simp only [h, if_false]
      refine ⟨by simp [h], fun v' => ?_⟩
      constructor
      · intro hh
        have : v = v' := by simpa using hh
        exact ⟨by rw [this], this ▸ h⟩
      · rintro ⟨r1, -⟩; rw [Option.some.inj r1]

/-- Nothing is done either for the version that runs, unless forced. -/
theorem C217_same {B : Type} (e : Env B) (a : Args) (w : World B) (hd : e.downloader = true) (hc : a.check = false)
    (hf : a.force = false) (hv : targetVersion e a = some e.current) : execute e a w = ([], .already) := by
  unfold execute
  simp [hd, hv, hc, hf]

/-- However an update ends that was asked for and possible, its temporary directory is gone, if the program can be replaced at all. -/
theorem C217_cleared {B : Type} (e : Env B) (a : Args) (w : World B) {v t : Str} (hw : Wanted e a v) (hd : e.downloader = true)
    (ht : e.target = some t) (htmp : e.temp = true) (hs : e.self = true) (hm : e.movable = true) :
    (runSteps (execute e a w).1 w).temp = [] := by
  obtain ⟨hv, hc, hf⟩ := hw
  have hnf : ¬(v = e.current ∧ a.force = false) := by
    rintro ⟨r1, r2⟩
    rcases hf with r | r
    · exact r r1
    · rw [r2] at r; cases r
  have last : ∀ (l : List (Step B)) (w : World B), (runSteps (l ++ [.clear]) w).temp = [] := by
    intro l w
    simp [runSteps, List.foldl_append, Step.apply]
  have hex : execute e a w = download e w v t := by
    unfold execute
    simp [hd, hv, hc, hnf, ht, htmp]
  rw [hex]
  unfold download
  rcases e.archive v (archiveName t) with _ | b
  · rfl
  simp only
  rcases e.sums v with _ | text
  · rfl
  simp only
  rcases checksumFor text (archiveName t) with _ | expected
  · rfl
  simp only
  split
  · rfl
  · unfold install
    rcases e.unpack b with _ | files
    · rfl
    · simp only
      split
      · exact last (_ :: _ :: _) w
      · rename_i f _
        simp only [hs, hm, Bool.not_true, Bool.or_self, Bool.false_eq_true, if_false]
        have := last (Step.write [archiveName t] b :: Step.write [c!"checksums-sha256.txt"] (e.file text) ::
          ((files.map fun f => Step.write f.1 f.2) ++ [.install f.1 f.2])) w
        simpa [List.append_assoc] using this

/-- The lines of a text, ended by a newline with or without a carriage return. -/
theorem C217_lines (ls : List (Str × Bool)) (h : ∀ l ∈ ls, '\n' ∉ l.1 ∧ l.1.getLast? ≠ some '\r') :
    SelfUpdate.linesOf (ls.flatMap fun l => l.1 ++ (if l.2 then c!"\r\n" else c!"\n")) = ls.map Prod.fst := by
  have hj : ∀ ls : List (Str × Bool), (ls.flatMap fun l => l.1 ++ (if l.2 then c!"\r\n" else c!"\n")) =
      joinWith ['\n'] (ls.map (fun l => l.1 ++ (if l.2 then c!"\r" else [])) ++ [[]]) := by
    intro ls
    induction ls with
    | nil => rfl
    | cons l ls ih =>
      rw [List.flatMap_cons, ih, List.map_cons, List.cons_append]
      cases hl : ls.map (fun l => l.1 ++ (if l.2 then c!"\r" else [])) ++ [[]] with
      | nil => simp at hl
      | cons x xs =>
        simp only [joinWith]
        cases l.2 <;> simp
  have hs : splitChar '\n' (ls.flatMap fun l => l.1 ++ (if l.2 then c!"\r\n" else c!"\n")) =
      ls.map (fun l => l.1 ++ (if l.2 then c!"\r" else [])) ++ [[]] := by
    rw [hj]
    apply splitChar_join (by simp)
    intro p hp
    rcases List.mem_append.1 hp with hp | hp
    · obtain ⟨l, hl, rfl⟩ := List.mem_map.1 hp
      have := (h l hl).1
      cases l.2 <;> simp [this]
    · rw [List.mem_singleton.1 hp]; exact List.not_mem_nil
  unfold SelfUpdate.linesOf
  rw [hs, List.dropLast_concat, List.getLast?_concat]
  simp only [Option.toList_some, List.filter_cons, List.isEmpty_nil, Bool.not_true, Bool.false_eq_true, if_false, List.filter_nil,
    List.append_nil, List.map_map]
  apply List.map_congr_left
  intro l hl
  have := (h l hl).2
  simp only [Function.comp]
  cases l.2 with
  | true => simp
  | false => simp [this]

/-! ## The version -/

theorem dropVs_replicate (n : Nat) (v : Str) (h : v.head? ≠ some 'v') : dropVs (List.replicate n 'v' ++ v) = v := by
  unfold dropVs
  induction n with
  | zero =>
    cases v with
    | nil => rfl
    | cons c v =>
      have : c ≠ 'v' := by simpa using h
      simp [this]
  | succ n ih =>
    rw [List.replicate_succ, List.cons_append, List.dropWhile_cons]
    simpa using ih

/-- `--version` is taken without every leading `v`. -/
theorem C217_given {B : Type} (e : Env B) (a : Args) (n : Nat) (v : Str) (h : v.head? ≠ some 'v')
    (ha : a.version = some (List.replicate n 'v' ++ v)) : targetVersion e a = some v := by
  simp only [targetVersion, ha, dropVs, Option.some.injEq]
  exact dropVs_replicate n v h

theorem splitOnce_colon (x y : Str) (h : ':' ∉ x) : splitOnce c!":" (x ++ ':' :: y) = some (x, y) := by
  induction x with
  | nil => simp [splitOnce]
  | cons c x ih =>
    simp only [List.mem_cons, not_or] at h
    have hc : ¬(':' = c) := h.1
    simp [splitOnce, hc, ih h.2]

theorem containsStr_within (x y pat : Str) : containsStr (x ++ (pat ++ y)) pat = true := by
  induction x with
  | nil =>
    cases pat with
    | nil => cases y <;> simp [containsStr]
    | cons c pat =>
      have : (c :: pat).isPrefixOf (c :: pat ++ y) = true := List.isPrefixOf_iff_prefix.mpr (List.prefix_append _ _)
      simp only [List.nil_append, List.cons_append, containsStr] at *
      rw [this]; rfl
  | cons c x ih => simp [containsStr, ih]

/-- The latest version is read from the line that names it, as the release list is published: one field a line. -/
theorem C217_tag (json indent v : Str) (before after : List Str) (n : Nat)
    (hj : SelfUpdate.linesOf json = before ++ (indent ++ c!"\"tag_name\": \"" ++ List.replicate n 'v' ++ v ++ c!"\",") :: after)
    (hb : ∀ l ∈ before, containsStr l c!"\"tag_name\"" = false) (hi : ':' ∉ indent) (hv : v ≠ []) (h0 : v.head? ≠ some 'v')
    (h1 : ∀ c, (List.replicate n 'v' ++ v).head? = some c ∨ v.getLast? = some c → c ≠ '"' ∧ c ≠ ',' ∧ c ≠ ' ') :
    tagName json = some v := by
  have hfind : (SelfUpdate.linesOf json).find? (fun l => containsStr l c!"\"tag_name\"") =
      some (indent ++ c!"\"tag_name\": \"" ++ List.replicate n 'v' ++ v ++ c!"\",") := by
    rw [hj, List.find?_append, List.find?_eq_none.mpr (by simpa using hb)]
    have : containsStr (indent ++ c!"\"tag_name\": \"" ++ List.replicate n 'v' ++ v ++ c!"\",") c!"\"tag_name\"" = true := by
      have := containsStr_within indent (c!": \"" ++ List.replicate n 'v' ++ v ++ c!"\",") c!"\"tag_name\""
      simpa [List.append_assoc] using this
    rw [Option.none_or, List.find?_cons, this]
  have hsplit : splitOnce c!":" (indent ++ c!"\"tag_name\": \"" ++ List.replicate n 'v' ++ v ++ c!"\",") =
      some (indent ++ c!"\"tag_name\"", c!" \"" ++ (List.replicate n 'v' ++ v) ++ c!"\",") := by
    have := splitOnce_colon (indent ++ c!"\"tag_name\"") (c!" \"" ++ (List.replicate n 'v' ++ v) ++ c!"\",")
      (by simp [hi])
    simpa [List.append_assoc] using this
  unfold tagName
  rw [hfind]
  simp only [hsplit, Option.some.injEq]
  generalize hx : List.replicate n 'v' ++ v = x at *
  have hxne : x ≠ [] := by rw [← hx]; simp [hv]
  have hxlast : x.getLast? = v.getLast? := by rw [← hx, List.getLast?_append]; cases hg : v.getLast? with
    | none => exact absurd (List.getLast?_eq_none_iff.mp hg) hv
    | some c => rfl
  have ht : trim (c!" \"" ++ x ++ c!"\",") = '"' :: x ++ c!"\"," := by
    simp [trim, trimStart, trimEnd, isWs]
  have hm : trimMarks ('"' :: x ++ c!"\",") = x := by
    obtain ⟨a, x', rfl⟩ := List.exists_cons_of_ne_nil hxne
    have ha := h1 a (Or.inl rfl)
    obtain ⟨y, z, hyz⟩ : ∃ y z, a :: x' = y ++ [z] := ⟨_, _, (List.dropLast_concat_getLast hxne).symm⟩
    have hz := h1 z (Or.inr (by rw [← hxlast, hyz]; simp))
    unfold trimMarks
    simp only
    have e1 : List.dropWhile (fun c : Char => decide (c = '"') || decide (c = ',') || decide (c = ' '))
        ('"' :: (a :: x') ++ c!"\",") = (a :: x') ++ c!"\"," := by
      simp [ha.1, ha.2.1, ha.2.2]
    rw [e1, hyz]
    simp [hz.1, hz.2.1, hz.2.2]
  rw [ht, hm, ← hx]
  exact dropVs_replicate n v h0

/-! ## Concrete cases -/

/-- A world where contents are texts. -/
def releaseEnv (walk : List (Path × Str) → List (Path × Str)) : Env Str where
  current := c!"0.2.0"
  downloader := true
  latest := some c!"{\n  \"url\": \"x\",\n  \"tag_name\": \"v0.3.0\",\n  \"name\": \"y\"\n}\n"
  target := some c!"linux"
  temp := true
  archive := fun _ n => if n = c!"rez-next-linux.tar.gz" then some c!"ARCHIVE" else none
  sums := fun _ => some (List.replicate 64 'A' ++ c!"  other.zip\n" ++ List.replicate 64 'B' ++ c!"  rez-next-linux.tar.gz\n")
  sha := fun b => if b = c!"ARCHIVE" then List.replicate 64 'b' else []
  unpack := fun b => if b = c!"ARCHIVE" then some [([c!"doc", c!"README"], c!"text"), ([c!"rez-next"], c!"NEW")] else none
  file := id
  walk := walk
  self := true
  movable := true

def plainArgs : Args := ⟨none, false, false⟩

/-- An update from 0.2.0 to 0.3.0. -/
example : (execute (releaseEnv id) plainArgs ⟨c!"OLD", []⟩).2 = .updated c!"0.3.0" ∧
    (runSteps (execute (releaseEnv id) plainArgs ⟨c!"OLD", []⟩).1 ⟨c!"OLD", []⟩).exe = c!"NEW" ∧
    (runSteps ((execute (releaseEnv id) plainArgs ⟨c!"OLD", []⟩).1.take 4) ⟨c!"OLD", []⟩).exe = c!"OLD" := by decide +kernel

/-- The hypotheses of the theorem on complete updates are met. -/
example : (execute (releaseEnv id) plainArgs ⟨c!"OLD", []⟩).2 = .updated c!"0.3.0" := by
  have hs : Trusted (releaseEnv id) c!"0.3.0" c!"linux" c!"ARCHIVE" :=
    ⟨by decide, _, rfl, (C217_checksum _ _ _).mp (by decide +kernel)⟩
  exact (C217_installs (releaseEnv id) (fun l f => Iff.rfl) plainArgs ⟨c!"OLD", []⟩ (v := c!"0.3.0") (t := c!"linux")
    (b := c!"ARCHIVE") (files := [([c!"doc", c!"README"], c!"text"), ([c!"rez-next"], c!"NEW")]) (p := [c!"rez-next"]) (c := c!"NEW")
    (by simp) ⟨by decide +kernel, rfl, Or.inl (by decide)⟩ rfl rfl rfl hs (by decide) (by decide) ⟨[], Or.inl rfl⟩ (by simp)
    (by
      intro f hf hp
      simp only [List.mem_cons, List.not_mem_nil, or_false] at hf
      rcases hf with rfl | rfl
      · exact absurd ((isProgram_iff _).mpr hp) (by decide)
      · rfl) rfl rfl).1

/-- The latest version is read. -/
example : tagName c!"{\n  \"url\": \"x\",\n  \"tag_name\": \"v0.3.0\",\n  \"name\": \"y\"\n}\n" = some c!"0.3.0" :=
  C217_tag _ c!"  " c!"0.3.0" [c!"{", c!"  \"url\": \"x\","] [c!"  \"name\": \"y\"", c!"}"] 1 (by decide +kernel) (by decide +kernel)
    (by decide) (by decide) (by decide) (by
      intro c hc
      rcases hc with h | h
      · have : c = 'v' := by simpa using h.symm
        subst this; decide
      · have : c = '0' := by simpa using h.symm
        subst this; decide)

/-- An archive that was altered is not installed. -/
example : let e := { releaseEnv id with archive := fun _ _ => some c!"ALTERED" }
    (execute e plainArgs ⟨c!"OLD", []⟩).2 = .failed ∧
      (runSteps (execute e plainArgs ⟨c!"OLD", []⟩).1 ⟨c!"OLD", []⟩).exe = c!"OLD" := by decide +kernel

/-! ## What does not hold -/

/-- What is installed need not come from the verified archive: a file of the program's name that lay in the temporary directory,
whose name is known beforehand, may be listed first and is then installed. -/
theorem C217_leftover_false : ¬∀ (e : Env Str) (a : Args) (w : World Str) (v : Str), (∀ l, (e.walk l).Perm l) →
    (execute e a w).2 = .updated v →
    ∃ t b files p, e.target = some t ∧ Trusted e v t b ∧ e.unpack b = some files ∧
      (p, (runSteps (execute e a w).1 w).exe) ∈ files := by
  intro h
  obtain ⟨t, b, files, p, h1, h2, h3, h4⟩ := h (releaseEnv List.reverse) plainArgs ⟨c!"OLD", [([c!"a", c!"rez-next"], c!"PLANTED")]⟩
    c!"0.3.0" (fun l => List.reverse_perm l) (by decide +kernel)
  have he : (runSteps (execute (releaseEnv List.reverse) plainArgs ⟨c!"OLD", [([c!"a", c!"rez-next"], c!"PLANTED")]⟩).1
      ⟨c!"OLD", [([c!"a", c!"rez-next"], c!"PLANTED")]⟩).exe = c!"PLANTED" := by decide +kernel
  rw [he] at h4
  have hb : (if b = c!"ARCHIVE" then some [([c!"doc", c!"README"], c!"text"), ([c!"rez-next"], c!"NEW")] else none) = some files := h3
  split at hb
  · have := Option.some.inj hb
    rw [← this] at h4
    simp at h4
  · cases hb

/-- An older version is called an update too. -/
theorem C217_older_false : ¬∀ (e : Env Str) (a : Args) (w : World Str) (x y : Nat), e.current = c!"0." ++ decimal x →
    (execute e a w).2 = .available (c!"0." ++ decimal y) → x ≤ y := by
  intro h
  have := h { releaseEnv id with current := c!"0.5" } ⟨some c!"v0.4", true, false⟩ ⟨[], []⟩ 5 4 (by decide +kernel) (by decide +kernel)
  exact absurd this (by decide)

/-- The temporary directory may stay behind: when the program cannot be moved into place (the temporary directory is on another
file system), nothing removes it. -/
theorem C217_cleanup_false : ¬∀ (e : Env Str) (a : Args) (w : World Str), (runSteps (execute e a w).1 w).temp = [] ∨
    (execute e a w).1 = [] := by
  intro h
  exact absurd (h { releaseEnv id with movable := false } plainArgs ⟨c!"OLD", []⟩) (by decide +kernel)

/-- A release description on one line is misread: the text after its first colon is taken for the version. -/
theorem C217_compact_false : tagName c!"{\"id\":1,\"tag_name\":\"v0.3.0\"}" ≠ some c!"0.3.0" := by decide +kernel

end Rez.Props
