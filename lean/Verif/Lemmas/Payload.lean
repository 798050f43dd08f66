import Verif.Spec.Payload
import Mathlib.Tactic.Tauto
/-!
# Lemmas about the payload cache
-/
namespace Rez.Payload
open Rez Rez.Spec.Payload
variable {H F C : Type} [DecidableEq H] [DecidableEq F]

/-! ## Names -/

/-- the letter with a number -/
def letter (i : Nat) : Char := Char.ofNat (97 + i)

theorem letter_toNat {i : Nat} (h : i < 26) : (letter i).toNat = 97 + i := by
  have : (97 + i).isValidChar := Or.inl (by omega)
  simp [letter, Char.ofNat, this, Char.toNat, Char.ofNatAux]
  omega

theorem letter_inj {i j : Nat} (hi : i < 26) (hj : j < 26) (h : letter i = letter j) : i = j := by
  have := congrArg Char.toNat h
  rw [letter_toNat hi, letter_toNat hj] at this
  omega

/-- names of one letter among the first `n` -/
def Lettered (n : Nat) (ks : List Str) : Prop := ∀ k ∈ ks, ∃ i, i < n ∧ k = [letter i]

theorem strLt_letter {i j : Nat} (hi : i < 26) (hj : j < 26) : strLt [letter i] [letter j] = decide (i < j) := by
  simp [strLt, letter_toNat hi, letter_toNat hj]

/-- the greatest of letters is one of them and no less than any -/
theorem foldMax_letter {n : Nat} (hn : n ≤ 26) (xs : List Str) (hx : Lettered n xs) {i : Nat} (hi : i < n) :
    ∃ m, m < n ∧ xs.foldl (fun cur y => if strLt cur y then y else cur) [letter i] = [letter m] ∧ i ≤ m ∧
      ∀ k ∈ xs, ∃ j, j ≤ m ∧ k = [letter j] := by
  induction xs generalizing i with
  | nil => exact ⟨i, hi, rfl, Nat.le_refl _, by simp⟩
  | cons x xs ih =>
    obtain ⟨j, hj, rfl⟩ := hx x (by simp)
    rw [List.foldl_cons, strLt_letter (by omega) (by omega)]
    have hxs : Lettered n xs := fun k hk => hx k (by simp [hk])
    by_cases h : i < j
    · simp only [h, decide_true, if_true]
      obtain ⟨m, hm, he, hle, hall⟩ := ih hxs hj
      refine ⟨m, hm, he, by omega, ?_⟩
      intro k hk
      rcases List.mem_cons.mp hk with rfl | hk
      · exact ⟨j, hle, rfl⟩
      · exact hall k hk
    · simp only [h, decide_false, Bool.false_eq_true, if_false]
      obtain ⟨m, hm, he, hle, hall⟩ := ih hxs hi
      refine ⟨m, hm, he, hle, ?_⟩
      intro k hk
      rcases List.mem_cons.mp hk with rfl | hk
      · exact ⟨j, by omega, rfl⟩
      · exact hall k hk

theorem increment_letter {i : Nat} (hi : i < 25) : increment [letter i] = [letter (i + 1)] := by
  have hz : letter i ≠ 'z' := by
    intro h
    have := congrArg Char.toNat h
    rw [letter_toNat (by omega)] at this
    have : 97 + i = 122 := this
    omega
  simp only [increment, List.reverse_cons, List.reverse_nil, List.nil_append, bumpRev, if_neg hz, letter_toNat (i := i) (by omega)]
  rfl

/-- below 26 names the next one is new -/
theorem next_fresh {n : Nat} (hn : n < 26) {scan : List Str} (hl : Lettered n scan) :
    ∃ i, i ≤ n ∧ nextIncrement scan = [letter i] ∧ nextIncrement scan ∉ scan := by
  unfold nextIncrement maxName
  rcases scan with _ | ⟨x, xs⟩
  · exact ⟨0, Nat.zero_le _, rfl, by simp⟩
  · simp only
    obtain ⟨i, hi, rfl⟩ := hl x (by simp)
    obtain ⟨m, hm, he, hle, hall⟩ := foldMax_letter (Nat.le_of_lt hn) xs (fun k hk => hl k (by simp [hk])) hi
    rw [he, increment_letter (by omega)]
    refine ⟨m + 1, hm, rfl, ?_⟩
    intro hmem
    rcases List.mem_cons.mp hmem with h | h
    · have := letter_inj (by omega) (by omega) (List.cons.inj h).1
      omega
    · obtain ⟨j, hj, h⟩ := hall _ h
      have := letter_inj (by omega) (by omega) (List.cons.inj h).1
      omega

/-! ## Lookups -/

theorem getCached_cases (now : Nat) (scan : List Str) (b : Bucket H F C) (h : H) :
    ((∀ inc ∈ scan, holds b h inc = false) ∧ getCached now scan b h = (.notFound, none, [])) ∨
    (∃ inc t, inc ∈ scan ∧ holds b h inc = true ∧ mget b.flags inc = some t ∧
      getCached now scan b h = (if now - t > 300 then .copyStalled else .copying, some inc, [])) ∨
    (∃ inc, inc ∈ scan ∧ holds b h inc = true ∧ mget b.flags inc = none ∧
      getCached now scan b h = (.found, some inc, [.tearMeta inc, .writeMeta inc h now])) := by
  unfold getCached
  rcases hf : scan.find? (holds b h) with _ | inc
  · left
    refine ⟨fun inc hi => ?_, rfl⟩
    have := List.find?_eq_none.mp hf inc hi
    simpa using this
  · right
    have h1 := List.find?_some hf
    have h2 := List.mem_of_find?_eq_some hf
    rcases hfl : mget b.flags inc with _ | t
    · exact .inr ⟨inc, h2, h1, hfl, by simp only [hfl]⟩
    · exact .inl ⟨inc, t, h2, h1, hfl, by simp only [hfl]⟩

theorem holds_iff {b : Bucket H F C} {h : H} {inc : Str} :
    holds b h inc = true ↔ ∃ t, mget b.metas inc = some (.whole h t) := by
  unfold holds
  rcases mget b.metas inc with _ | (⟨h', t⟩ | _)
  · simp
  · simp
  · simp

/-! ## The invariant -/

/-- the entry has the complete payload of an add of the handle -/
def Done (b : Bucket H F C) (adds : List (H × List (F × C))) (inc : Str) (h : H) : Prop :=
  ∃ p src, mget b.payloads inc = some p ∧ (h, src) ∈ adds ∧ Complete p src

/-- a reader may touch this entry -/
def Safe (b : Bucket H F C) (adds : List (H × List (F × C))) (inc : Str) (h : H) : Prop :=
  mget b.flags inc = none ∧ inc ∈ mkeys b.metas ∧ Done b adds inc h

/-- what a reader may have before it -/
def ReaderOk (b : Bucket H F C) (adds : List (H × List (F × C))) (r : List (Step H F C)) : Prop :=
  r = [] ∨ ∃ inc h t, (r = [.tearMeta inc, .writeMeta inc h t] ∨ r = [.writeMeta inc h t]) ∧ Safe b adds inc h

/-- a step of copying, on the files -/
def fileStep (inc : Str) (p : Files F C) : Step H F C → Files F C
  | .tearFile i f => if i = inc then mset p f none else p
  | .writeFile i f c => if i = inc then mset p f (some c) else p
  | _ => p

/-- the step writes a file of this payload -/
def OnFile (inc : Str) : Step H F C → Prop
  | .tearFile i _ => i = inc
  | .writeFile i _ _ => i = inc
  | _ => False

/-- where a process that fills an entry may be -/
inductive Filling (b : Bucket H F C) (adds : List (H × List (F × C))) (inc : Str) : List (Step H F C) → Prop where
  | start (now h src) (hl : ∃ i, i < adds.length ∧ inc = [letter i]) (hn : (mkeys src).Nodup) (ha : (h, src) ∈ adds)
      (hm : inc ∉ mkeys b.metas) : Filling b adds inc (fillSteps now inc h src)
  | flagged (now h src t) (hl : ∃ i, i < adds.length ∧ inc = [letter i]) (hn : (mkeys src).Nodup) (ha : (h, src) ∈ adds)
      (hm : inc ∉ mkeys b.metas) (hf : mget b.flags inc = some t) :
      Filling b adds inc (.tearMeta inc :: .writeMeta inc h now :: (copySteps inc src ++ [.unflag inc]))
  | torn (now h src t) (hn : (mkeys src).Nodup) (ha : (h, src) ∈ adds)
      (hm : inc ∈ mkeys b.metas) (hf : mget b.flags inc = some t) (hp : mget b.payloads inc = none) :
      Filling b adds inc (.writeMeta inc h now :: (copySteps inc src ++ [.unflag inc]))
  | named (h src t t') (hn : (mkeys src).Nodup) (ha : (h, src) ∈ adds)
      (hm : mget b.metas inc = some (.whole h t')) (hf : mget b.flags inc = some t) (hp : mget b.payloads inc = none) :
      Filling b adds inc (copySteps inc src ++ [.unflag inc])
  | copying (h src t t' rem p) (ha : (h, src) ∈ adds)
      (hm : mget b.metas inc = some (.whole h t')) (hf : mget b.flags inc = some t) (hp : mget b.payloads inc = some p)
      (hr : ∀ x ∈ rem, OnFile inc x) (hc : Complete (rem.foldl (fileStep inc) p) src) :
      Filling b adds inc (rem ++ [.unflag inc])

/-- The invariant. -/
structure Inv (s : Sys H F C) : Prop where
  letters : Lettered s.adds.length (mkeys s.bucket.metas)
  good : ∀ inc h t, mget s.bucket.metas inc = some (.whole h t) → mget s.bucket.flags inc = none → Done s.bucket s.adds inc h
  payload : ∀ inc p, mget s.bucket.payloads inc = some p → inc ∈ mkeys s.bucket.metas
  readers : ∀ r ∈ s.readers, ReaderOk s.bucket s.adds r
  adder : ReaderOk s.bucket s.adds s.adder ∨ ∃ inc, Filling s.bucket s.adds inc s.adder

theorem inv_empty : Inv (Sys.empty : Sys H F C) where
  letters := by intro k hk; simp [Sys.empty, mkeys] at hk
  good := by intro inc h t hm; simp [Sys.empty] at hm
  payload := by intro inc p hp; simp [Sys.empty] at hp
  readers := by intro r hr; simp [Sys.empty] at hr
  adder := .inl (.inl rfl)

/-- copying the files completes the payload -/
theorem copy_complete (inc : Str) (src : List (F × C)) (hn : (mkeys src).Nodup) (p : Files F C)
    (hp : ∀ f, f ∉ mkeys src → mget p f = none) :
    Complete ((src.flatMap fun q => [.tearFile inc q.1, .writeFile inc q.1 q.2] : List (Step H F C)).foldl (fileStep inc) p) src := by
  induction src generalizing p with
  | nil => intro f; simpa [mkeys] using hp f (by simp [mkeys])
  | cons q src ih =>
    obtain ⟨x, c⟩ := q
    simp only [mkeys, List.map_cons, List.nodup_cons] at hn
    simp only [List.flatMap_cons, List.foldl_append, List.foldl_cons, List.foldl_nil, fileStep, if_true]
    have hkeep : ∀ (rem : List (Step H F C)) (p : Files F C), (∀ y ∈ rem, ∀ i f, (y = .tearFile i f → f ≠ x) ∧ ∀ c, y = .writeFile i f c → f ≠ x) →
        mget (rem.foldl (fileStep inc) p) x = mget p x := by
      intro rem
      induction rem with
      | nil => intro p _; rfl
      | cons y rem ihr =>
        intro p hy
        rw [List.foldl_cons, ihr _ (fun z hz => hy z (by simp [hz]))]
        have := hy y (by simp)
        cases y with
        | tearFile i f =>
          have hne : x ≠ f := Ne.symm ((this i f).1 rfl)
          simp only [fileStep]
          split
          · rw [mget_mset, if_neg hne]
          · rfl
        | writeFile i f c =>
          have hne : x ≠ f := Ne.symm ((this i f).2 c rfl)
          simp only [fileStep]
          split
          · rw [mget_mset, if_neg hne]
          · rfl
        | _ => rfl
    intro f
    by_cases hf : f = x
    · subst hf
      rw [hkeep]
      · simp [mget_mset, mget]
      · intro y hy i g
        simp only [List.mem_flatMap, List.mem_cons, List.not_mem_nil, or_false] at hy
        obtain ⟨q, hq, hy⟩ := hy
        have hqx : q.1 ≠ f := by
          rintro rfl
          exact hn.1 (List.mem_map.mpr ⟨q, hq, rfl⟩)
        rcases hy with rfl | rfl
        · exact ⟨fun h => by simp only [Step.tearFile.injEq] at h; rw [← h.2]; exact hqx, fun c h => by simp at h⟩
        · exact ⟨fun h => by simp at h, fun c h => by simp only [Step.writeFile.injEq] at h; rw [← h.2.1]; exact hqx⟩
    · -- other files: forget the one just written
      have hgen : ∀ (rem : List (Step H F C)) (p p' : Files F C), (mget p f = mget p' f) →
          mget (rem.foldl (fileStep inc) p) f = mget (rem.foldl (fileStep inc) p') f := by
        intro rem
        induction rem with
        | nil => intro p p' h; exact h
        | cons y rem ihr =>
          intro p p' h
          rw [List.foldl_cons, List.foldl_cons]
          apply ihr
          cases y with
          | tearFile i g =>
            simp only [fileStep]
            split
            · rw [mget_mset, mget_mset, h]
            · exact h
          | writeFile i g c =>
            simp only [fileStep]
            split
            · rw [mget_mset, mget_mset, h]
            · exact h
          | _ => exact h
      rw [hgen _ _ (mdel p x) (by rw [mget_mset, mget_mset, if_neg hf, if_neg hf, mget_mdel, if_neg hf])]
      rw [ih hn.2 (mdel p x)]
      · simp [mget, Ne.symm hf]
      · intro g hg
        rw [mget_mdel]
        split
        · rfl
        · rename_i hgx
          apply hp
          simp only [mkeys, List.map_cons, List.mem_cons, not_or]
          exact ⟨hgx, hg⟩

/-! ## Every step keeps the invariant -/

theorem mem_mkeys_iff {α : Type} {m : List (Str × α)} {k : Str} : k ∈ mkeys m ↔ ∃ v, mget m k = some v := (mget_isSome_iff m k).symm

theorem Done.mono {b b' : Bucket H F C} {adds adds' : List (H × List (F × C))} {inc : Str} {h : H}
    (hp : mget b'.payloads inc = mget b.payloads inc) (ha : ∀ x ∈ adds, x ∈ adds') (hd : Done b adds inc h) : Done b' adds' inc h := by
  obtain ⟨p, src, h1, h2, h3⟩ := hd
  exact ⟨p, src, by rw [hp]; exact h1, ha _ h2, h3⟩

theorem Safe.mono {b b' : Bucket H F C} {adds adds' : List (H × List (F × C))} {inc : Str} {h : H}
    (hf : mget b'.flags inc = mget b.flags inc)
    (hp : mget b'.payloads inc = mget b.payloads inc) (hm : inc ∈ mkeys b.metas → inc ∈ mkeys b'.metas)
    (ha : ∀ x ∈ adds, x ∈ adds') (hd : Safe b adds inc h) : Safe b' adds' inc h :=
  ⟨by rw [hf]; exact hd.1, hm hd.2.1, hd.2.2.mono hp ha⟩

theorem ReaderOk.mono {b b' : Bucket H F C} {adds adds' : List (H × List (F × C))} {r : List (Step H F C)}
    (hs : ∀ inc h, Safe b adds inc h → Safe b' adds' inc h) (hr : ReaderOk b adds r) : ReaderOk b' adds' r := by
  rcases hr with h | ⟨inc, h, t, h1, h2⟩
  · exact .inl h
  · exact .inr ⟨inc, h, t, h1, hs _ _ h2⟩

theorem Filling.frame {b b' : Bucket H F C} {adds : List (H × List (F × C))} {inc : Str} {l : List (Step H F C)}
    (hf : mget b'.flags inc = mget b.flags inc) (hp : mget b'.payloads inc = mget b.payloads inc)
    (hm : mget b'.metas inc = mget b.metas inc) (h : Filling b adds inc l) : Filling b' adds inc l := by
  have hk : inc ∈ mkeys b'.metas ↔ inc ∈ mkeys b.metas := by rw [mem_mkeys_iff, mem_mkeys_iff, hm]
  cases h with
  | start now h src hl hn ha hmm => exact .start now h src hl hn ha (by rw [hk]; exact hmm)
  | flagged now h src t hl hn ha hmm hff => exact .flagged now h src t hl hn ha (by rw [hk]; exact hmm) (by rw [hf]; exact hff)
  | torn now h src t hn ha hmm hff hpp => exact .torn now h src t hn ha (hk.mpr hmm) (by rw [hf]; exact hff) (by rw [hp]; exact hpp)
  | named h src t t' hn ha hmm hff hpp => exact .named h src t t' hn ha (by rw [hm]; exact hmm) (by rw [hf]; exact hff) (by rw [hp]; exact hpp)
  | copying h src t t' rem p ha hmm hff hpp hr hc =>
    exact .copying h src t t' rem p ha (by rw [hm]; exact hmm) (by rw [hf]; exact hff) (by rw [hp]; exact hpp) hr hc

/-- the entry being filled is none that a reader may touch -/
theorem Filling.not_safe {b : Bucket H F C} {adds : List (H × List (F × C))} {inc : Str} {l : List (Step H F C)} {h : H}
    (hl : Filling b adds inc l) (hs : Safe b adds inc h) : False := by
  have h1 := hs.1
  have h2 := hs.2.1
  cases hl with
  | start now h src hl hn ha hm => exact hm h2
  | flagged now h src t hl hn ha hm hf => exact hm h2
  | torn now h src t hn ha hm hf hp => rw [hf] at h1; cases h1
  | named h src t t' hn ha hm hf hp => rw [hf] at h1; cases h1
  | copying h src t t' rem p ha hm hf hp hr hc => rw [hf] at h1; cases h1

/-- rewriting the metadata of an entry that a reader may touch -/
theorem inv_touch {s : Sys H F C} (hi : Inv s) {inc : Str} {h : H} (hs : Safe s.bucket s.adds inc h) (m : Meta H)
    (hm : ∀ h' t, m = .whole h' t → h' = h) (readers : List (List (Step H F C)))
    (hr : ∀ r ∈ readers, ReaderOk s.bucket s.adds r) (adder : List (Step H F C))
    (ha : ReaderOk s.bucket s.adds adder ∨ ∃ i, Filling s.bucket s.adds i adder) :
    Inv ⟨{ s.bucket with metas := mset s.bucket.metas inc m }, readers, adder, s.adds⟩ := by
  have hsafe : ∀ i k, Safe s.bucket s.adds i k → Safe { s.bucket with metas := mset s.bucket.metas inc m } s.adds i k := by
    intro i k hk
    exact Safe.mono (b := s.bucket) rfl rfl (fun h => mem_mkeys_mset.mpr (.inr h)) (fun _ h => h) hk
  refine ⟨?_, ?_, ?_, ?_, ?_⟩
  · intro k hk
    rcases mem_mkeys_mset.mp hk with rfl | hk
    · exact hi.letters _ hs.2.1
    · exact hi.letters k hk
  · intro i k t hmk hf
    simp only [mget_mset] at hmk
    split at hmk
    · rename_i he
      subst he
      have := hm k t (Option.some.inj hmk)
      subst this
      exact hs.2.2
    · exact hi.good i k t hmk hf
  · intro i p hp
    exact mem_mkeys_mset.mpr (.inr (hi.payload i p hp))
  · intro r hrm
    exact (hr r hrm).mono hsafe
  · rcases ha with ha | ⟨i, ha⟩
    · exact .inl (ha.mono hsafe)
    · refine .inr ⟨i, ?_⟩
      by_cases he : i = inc
      · subst he
        exact (ha.not_safe hs).elim
      · exact Filling.frame (b := s.bucket) rfl rfl (by simp only [mget_mset, if_neg he]) ha

theorem getCached_reader {s : Sys H F C} (hi : Inv s) (now : Nat) (scan : List Str) (hs : ScanOk scan s.bucket) (h : H) :
    ReaderOk s.bucket s.adds (getCached now scan s.bucket h).2.2 := by
  rcases getCached_cases now scan s.bucket h with ⟨_, e⟩ | ⟨inc, t, _, _, _, e⟩ | ⟨inc, hm, hh, hf, e⟩
  · rw [e]; exact .inl rfl
  · rw [e]; exact .inl rfl
  · rw [e]
    obtain ⟨t, ht⟩ := holds_iff.mp hh
    exact .inr ⟨inc, h, now, .inl rfl, hf, mem_mkeys_iff.mpr ⟨_, ht⟩, hi.good inc h t ht hf⟩

/-- a step of a reader -/
theorem inv_reader {b : Bucket H F C} {adds : List (H × List (F × C))} {x : Step H F C} {rest : List (Step H F C)}
    (hx : ReaderOk b adds (x :: rest)) :
    ∃ inc h m, Safe b adds inc h ∧ x.apply b = { b with metas := mset b.metas inc m } ∧ (∀ h' t, m = .whole h' t → h' = h) ∧
      ReaderOk b adds rest := by
  rcases hx with hx | ⟨inc, h, t, hx | hx, hs⟩
  · cases hx
  · obtain ⟨rfl, rfl⟩ := List.cons.inj hx
    exact ⟨inc, h, .torn, hs, rfl, (fun h' t' e => by cases e), .inr ⟨inc, h, t, .inr rfl, hs⟩⟩
  · obtain ⟨rfl, rfl⟩ := List.cons.inj hx
    exact ⟨inc, h, .whole h t, hs, rfl, (fun h' t' e => by cases e; rfl), .inl rfl⟩

/-- a step of filling -/
theorem inv_fill {s : Sys H F C} (hi : Inv s) {inc : Str} {x : Step H F C} {rest : List (Step H F C)}
    (hl : Filling s.bucket s.adds inc (x :: rest)) : Inv ⟨x.apply s.bucket, s.readers, rest, s.adds⟩ := by
  have hns := fun {h} => hl.not_safe (h := h)
  have other : ∀ {b' : Bucket H F C}, (∀ i, i ≠ inc → mget b'.flags i = mget s.bucket.flags i ∧
      mget b'.payloads i = mget s.bucket.payloads i ∧ (i ∈ mkeys s.bucket.metas → i ∈ mkeys b'.metas)) →
      ∀ r ∈ s.readers, ReaderOk b' s.adds r := by
    intro b' hb r hr
    refine (hi.readers r hr).mono ?_
    intro i h hs
    by_cases he : i = inc
    · subst he; exact (hns hs).elim
    · exact hs.mono (hb i he).1 (hb i he).2.1 (hb i he).2.2 (fun _ h => h)
  generalize hxr : x :: rest = l at hl
  cases hl with
  | start now h src hl hn ha hm =>
    obtain ⟨rfl, rfl⟩ := List.cons.inj hxr
    refine ⟨hi.letters, ?_, hi.payload, ?_, ?_⟩
    · intro i k t hmk hf
      simp only [Step.apply, mget_mset] at hmk hf
      split at hf
      · cases hf
      · exact hi.good i k t hmk hf
    · apply other
      intro i he
      exact ⟨by simp only [Step.apply, mget_mset, if_neg he], rfl, fun h => h⟩
    · exact .inr ⟨inc, .flagged now h src now hl hn ha hm (by simp [Step.apply, mget_mset])⟩
  | flagged now h src t hl hn ha hm hf =>
    obtain ⟨rfl, rfl⟩ := List.cons.inj hxr
    refine ⟨?_, ?_, ?_, ?_, ?_⟩
    · intro k hk
      rcases mem_mkeys_mset.mp hk with rfl | hk
      · exact hl
      · exact hi.letters k hk
    · intro i k t hmk hf
      simp only [Step.apply, mget_mset] at hmk
      split at hmk
      · cases hmk
      · exact hi.good i k t hmk hf
    · intro i p hp
      exact mem_mkeys_mset.mpr (.inr (hi.payload i p hp))
    · apply other
      intro i he
      exact ⟨rfl, rfl, fun h => mem_mkeys_mset.mpr (.inr h)⟩
    · refine .inr ⟨inc, .torn now h src t hn ha (mem_mkeys_mset.mpr (.inl rfl)) hf ?_⟩
      rcases hp : mget s.bucket.payloads inc with _ | p
      · exact hp
      · exact (hm (hi.payload inc p hp)).elim
  | torn now h src t hn ha hm hf hp =>
    obtain ⟨rfl, rfl⟩ := List.cons.inj hxr
    refine ⟨?_, ?_, ?_, ?_, ?_⟩
    · intro k hk
      rcases mem_mkeys_mset.mp hk with rfl | hk
      · exact hi.letters _ hm
      · exact hi.letters k hk
    · intro i k t' hmk hf'
      simp only [Step.apply, mget_mset] at hmk hf'
      split at hmk
      · rename_i he; subst he; rw [hf] at hf'; cases hf'
      · exact hi.good i k t' hmk hf'
    · intro i p hp
      exact mem_mkeys_mset.mpr (.inr (hi.payload i p hp))
    · apply other
      intro i he
      exact ⟨rfl, rfl, fun h => mem_mkeys_mset.mpr (.inr h)⟩
    · exact .inr ⟨inc, .named h src t now hn ha (by simp [Step.apply, mget_mset]) hf hp⟩
  | named h src t t' hn ha hm hf hp =>
    obtain ⟨rfl, rfl⟩ := List.cons.inj hxr
    refine ⟨hi.letters, ?_, ?_, ?_, ?_⟩
    · intro i k t'' hmk hf'
      simp only [Step.apply] at hmk hf'
      have he : i ≠ inc := by rintro rfl; rw [hf] at hf'; cases hf'
      exact (hi.good i k t'' hmk hf').mono (by simp only [Step.apply, mget_mset, if_neg he]) (fun _ h => h)
    · intro i p hp'
      by_cases he : i = inc
      · subst he; exact mem_mkeys_iff.mpr ⟨_, hm⟩
      · simp only [Step.apply, mget_mset, if_neg he] at hp'
        exact hi.payload i p hp'
    · apply other
      intro i he
      exact ⟨rfl, by simp only [Step.apply, mget_mset, if_neg he], fun h => h⟩
    · refine .inr ⟨inc, .copying h src t t' _ [] ha hm hf (by simp [Step.apply, mget_mset, hp]) ?_ (copy_complete inc src hn [] (by simp))⟩
      intro y hy
      simp only [List.mem_flatMap, List.mem_cons, List.not_mem_nil, or_false] at hy
      obtain ⟨q, _, rfl | rfl⟩ := hy <;> rfl
  | copying h src t t' rem p ha hm hf hp hr hc =>
    rcases rem with _ | ⟨y, rem⟩
    · obtain ⟨rfl, rfl⟩ := List.cons.inj hxr
      refine ⟨hi.letters, ?_, hi.payload, ?_, ?_⟩
      · intro i k t'' hmk hf'
        simp only [Step.apply, mget_mdel] at hmk hf'
        by_cases he : i = inc
        · subst he
          rw [hm] at hmk
          cases hmk
          exact ⟨p, src, hp, ha, hc⟩
        · rw [if_neg he] at hf'
          exact hi.good i k t'' hmk hf'
      · apply other
        intro i he
        exact ⟨by simp only [Step.apply, mget_mdel, if_neg he], rfl, fun h => h⟩
      · exact .inl (.inl rfl)
    · obtain ⟨rfl, rfl⟩ := List.cons.inj hxr
      have hy := hr x (by simp)
      have heff : ∃ g : Files F C → Files F C, x.apply s.bucket = { s.bucket with payloads := mupd s.bucket.payloads inc g } ∧
          g p = fileStep inc p x := by
        cases x with
        | tearFile i f => cases hy; exact ⟨_, rfl, by simp [fileStep]⟩
        | writeFile i f c => cases hy; exact ⟨_, rfl, by simp [fileStep]⟩
        | _ => cases hy
      obtain ⟨g, hg, hgp⟩ := heff
      rw [hg]
      refine ⟨hi.letters, ?_, ?_, ?_, ?_⟩
      · intro i k t'' hmk hf'
        simp only at hmk hf'
        have he : i ≠ inc := by rintro rfl; rw [hf] at hf'; cases hf'
        exact (hi.good i k t'' hmk hf').mono (by simp only [mget_mupd, if_neg he]) (fun _ h => h)
      · intro i q hq
        by_cases he : i = inc
        · subst he; exact mem_mkeys_iff.mpr ⟨_, hm⟩
        · simp only [mget_mupd, if_neg he] at hq
          exact hi.payload i q hq
      · apply other
        intro i he
        exact ⟨rfl, by simp only [mget_mupd, if_neg he], fun h => h⟩
      · refine .inr ⟨inc, .copying h src t t' rem (g p) ha hm hf (by simp [mget_mupd, hp]) (fun z hz => hr z (by simp [hz])) ?_⟩
        rw [hgp]
        exact hc

/-- The invariant is kept, as long as there are at most 26 adds. -/
theorem inv_step {s s' : Sys H F C} (hi : Inv s) (hst : Sys.Step s s') (hn : s'.adds.length ≤ 26) : Inv s' := by
  cases hst with
  | read _ h now scan hs =>
    refine ⟨hi.letters, hi.good, hi.payload, ?_, hi.adder⟩
    intro r hr
    rcases List.mem_cons.mp hr with rfl | hr
    · exact getCached_reader hi now scan hs h
    · exact hi.readers r hr
  | readStep b pre post x rest adder adds =>
    obtain ⟨inc, h, m, hs, he, hm, hrest⟩ := inv_reader (hi.readers (x :: rest) (by simp))
    rw [he]
    refine inv_touch hi hs m hm _ ?_ adder hi.adder
    intro r hr
    rcases List.mem_append.mp hr with hr | hr
    · exact hi.readers r (by simp [hr])
    · rcases List.mem_cons.mp hr with rfl | hr
      · exact hrest
      · exact hi.readers r (by simp [hr])
  | readDies b pre post r adder adds =>
    refine ⟨hi.letters, hi.good, hi.payload, ?_, hi.adder⟩
    intro r hr
    refine hi.readers r ?_
    simp only [List.mem_append, List.mem_cons] at hr ⊢
    tauto
  | add _ h src now scan space hs hn' hidle =>
    have hmono : ∀ x ∈ s.adds, x ∈ (h, src) :: s.adds := fun x hx => by simp [hx]
    have hsafe : ∀ i k, Safe s.bucket s.adds i k → Safe s.bucket ((h, src) :: s.adds) i k :=
      fun i k hk => hk.mono rfl rfl (fun h => h) hmono
    refine ⟨?_, ?_, hi.payload, ?_, ?_⟩
    · intro k hk
      obtain ⟨i, h1, h2⟩ := hi.letters k hk
      exact ⟨i, by simp only [List.length_cons]; omega, h2⟩
    · intro i k t hm hf
      exact (hi.good i k t hm hf).mono rfl hmono
    · intro r hr
      exact (hi.readers r hr).mono hsafe
    · simp only
      rcases hst : getCached now scan s.bucket h with ⟨st, o, steps⟩
      have hrd := getCached_reader hi now scan hs h
      rw [hst] at hrd
      unfold addVariant
      rw [hst]
      cases st with
      | notFound =>
        simp only
        split
        · rename_i hspace
          have : steps = [] := by
            rcases getCached_cases now scan s.bucket h with ⟨_, e⟩ | ⟨inc, t, _, _, _, e⟩ | ⟨inc, _, _, _, e⟩
            · rw [e] at hst; cases hst; rfl
            · rw [e] at hst
              split at hst <;> cases hst
            · rw [e] at hst; cases hst
          subst this
          simp only [List.length_cons] at hn
          have hl : Lettered s.adds.length scan := fun k hk => hi.letters k (hs.mem_iff.mp hk)
          obtain ⟨i, h1, h2, h3⟩ := next_fresh (by omega) hl
          refine .inr ⟨nextIncrement scan, .start now h src ⟨i, by simp only [List.length_cons]; omega, h2⟩ hn' (by simp) ?_⟩
          intro hk
          exact h3 (hs.mem_iff.mpr hk)
        · exact .inl (hrd.mono hsafe)
      | _ => exact .inl (hrd.mono hsafe)
  | addStep b readers x rest adds =>
    rcases hi.adder with ha | ⟨inc, ha⟩
    · obtain ⟨inc, h, m, hs, he, hm, hrest⟩ := inv_reader ha
      rw [he]
      exact inv_touch hi hs m hm readers hi.readers rest (.inl hrest)
    · exact inv_fill hi ha
  | addDies => exact ⟨hi.letters, hi.good, hi.payload, hi.readers, .inl (.inl rfl)⟩
  | remove _ h now scan hs hr hidle =>
    simp only [removeVariant]
    rcases getCached_cases now scan s.bucket h with ⟨_, e⟩ | ⟨inc, t, _, _, _, e⟩ | ⟨inc, hm, hh, hf, e⟩
    · rw [e]; exact hi
    · rw [e]
      split
      · rename_i hx; split at hx <;> cases hx
      · exact hi
    · rw [e]
      simp only [applyAll, List.cons_append, List.nil_append, List.foldl_cons, List.foldl_nil, Step.apply]
      refine ⟨?_, ?_, ?_, ?_, ?_⟩
      · intro k hk
        have hk := mem_mkeys_mdel.mp hk
        have h1 := mem_mkeys_mset.mp hk.1
        rcases h1 with rfl | h1
        · exact (hk.2 rfl).elim
        · rcases mem_mkeys_mset.mp h1 with rfl | h1
          · exact (hk.2 rfl).elim
          · exact hi.letters k h1
      · intro i k t hmk hfk
        simp only [mget_mdel, mget_mset] at hmk hfk
        split at hmk
        · cases hmk
        · rename_i he
          exact (hi.good i k t hmk hfk).mono (by simp only [mget_mdel, if_neg he]) (fun _ h => h)
      · intro i p hp
        simp only [mget_mdel] at hp
        split at hp
        · cases hp
        · rename_i he
          exact mem_mkeys_mdel.mpr ⟨mem_mkeys_mset.mpr (.inr (mem_mkeys_mset.mpr (.inr (hi.payload i p hp)))), he⟩
      · rw [hr]; intro r hr'; cases hr'
      · rw [hidle]; exact .inl (.inl rfl)

theorem adds_grow {s s' : Sys H F C} (h : Sys.Step s s') : s.adds.length ≤ s'.adds.length := by
  cases h <;> simp

theorem inv_reachable {s : Sys H F C} (hs : s.Reachable) (hn : s.adds.length ≤ 26) : Inv s := by
  unfold Sys.Reachable at hs
  induction hs with
  | refl => exact inv_empty
  | tail _ hst ih => exact inv_step (ih (Nat.le_trans (adds_grow hst) hn)) hst hn

/-! ## Runs -/

/-- the adder may run to its end, or stop anywhere -/
theorem run_adder (b : Bucket H F C) (readers : List (List (Step H F C))) (l r : List (Step H F C)) (adds : List (H × List (F × C))) :
    Relation.ReflTransGen Sys.Step ⟨b, readers, l ++ r, adds⟩ ⟨applyAll b l, readers, r, adds⟩ := by
  induction l generalizing b with
  | nil => exact .refl
  | cons x l ih => exact .head (Sys.Step.addStep b readers x (l ++ r) adds) (ih (x.apply b))

theorem mget_fileStep_other (b : Bucket H F C) (inc i : Str) (l : List (Step H F C)) (hl : ∀ x ∈ l, OnFile inc x) (hi : i ≠ inc) :
    (applyAll b l).metas = b.metas ∧ (applyAll b l).flags = b.flags ∧ mget (applyAll b l).payloads i = mget b.payloads i := by
  induction l generalizing b with
  | nil => exact ⟨rfl, rfl, rfl⟩
  | cons x l ih =>
    obtain ⟨h1, h2, h3⟩ := ih (x.apply b) (fun y hy => hl y (by simp [hy]))
    have hx := hl x (by simp)
    have : (x.apply b).metas = b.metas ∧ (x.apply b).flags = b.flags ∧ mget (x.apply b).payloads i = mget b.payloads i := by
      cases x with
      | tearFile j f => cases hx; exact ⟨rfl, rfl, by simp [Step.apply, mget_mupd, hi]⟩
      | writeFile j f c => cases hx; exact ⟨rfl, rfl, by simp [Step.apply, mget_mupd, hi]⟩
      | _ => cases hx
    exact ⟨h1.trans this.1, h2.trans this.2.1, h3.trans this.2.2⟩

theorem copy_onFile (inc : Str) (src : List (F × C)) :
    ∀ x ∈ (src.flatMap fun q => [.tearFile inc q.1, .writeFile inc q.1 q.2] : List (Step H F C)), OnFile inc x := by
  intro y hy
  simp only [List.mem_flatMap, List.mem_cons, List.not_mem_nil, or_false] at hy
  obtain ⟨q, _, rfl | rfl⟩ := hy <;> rfl

/-- metadata and flags are not touched by copying -/
theorem copy_metas (b : Bucket H F C) (inc : Str) (l : List (Step H F C)) (hl : ∀ x ∈ l, OnFile inc x) :
    (applyAll b l).metas = b.metas ∧ (applyAll b l).flags = b.flags :=
  let ⟨h1, h2, _⟩ := mget_fileStep_other b inc (inc ++ ['a']) l hl (by simp)
  ⟨h1, h2⟩

/-- filling an entry: what the directory is afterwards -/
theorem fill_effect (b : Bucket H F C) (now : Nat) (inc : Str) (h : H) (src : List (F × C)) :
    (∀ i, mget (applyAll b (fillSteps now inc h src)).metas i = if i = inc then some (.whole h now) else mget b.metas i) ∧
    (∀ i, mget (applyAll b (fillSteps now inc h src)).flags i = if i = inc then none else mget b.flags i) ∧
    ∀ i, i ≠ inc → mget (applyAll b (fillSteps now inc h src)).payloads i = mget b.payloads i := by
  have hsplit : ∀ (b : Bucket H F C) l r, applyAll b (l ++ r) = applyAll (applyAll b l) r := fun b l r => List.foldl_append
  unfold fillSteps copySteps
  rw [hsplit, hsplit]
  simp only [applyAll, List.foldl_cons, List.foldl_nil]
  have hc := copy_metas (H := H) ⟨mset b.flags inc now, mset (mset b.metas inc .torn) inc (.whole h now), mset b.payloads inc ((mget b.payloads inc).getD [])⟩ inc _ (copy_onFile inc src)
  refine ⟨fun i => ?_, fun i => ?_, fun i hi => ?_⟩
  · have := congrArg (mget · i) hc.1
    simp only [mget_mset] at this
    simp only [Step.apply]
    refine Eq.trans this ?_
    by_cases he : i = inc <;> simp [he]
  · have := hc.2
    simp only [applyAll] at this
    simp only [Step.apply, mget_mdel]
    rw [this]
    by_cases he : i = inc <;> simp [he, mget_mset]
  · have := (mget_fileStep_other (H := H) ⟨mset b.flags inc now, mset (mset b.metas inc .torn) inc (.whole h now), mset b.payloads inc ((mget b.payloads inc).getD [])⟩ inc i _ (copy_onFile inc src) hi).2.2
    simp only [mget_mset, if_neg hi] at this
    exact this

theorem mget_fileStep (b : Bucket H F C) (inc : Str) (l : List (Step H F C)) (hl : ∀ x ∈ l, OnFile inc x) :
    mget (applyAll b l).payloads inc = (mget b.payloads inc).map (l.foldl (fileStep inc)) := by
  induction l generalizing b with
  | nil => simp [applyAll]
  | cons x l ih =>
    have := ih (x.apply b) (fun y hy => hl y (by simp [hy]))
    have hx := hl x (by simp)
    refine Eq.trans this ?_
    cases x with
    | tearFile j f => cases hx; simp [Step.apply, mget_mupd, Function.comp_def, fileStep]
    | writeFile j f c => cases hx; simp [Step.apply, mget_mupd, Function.comp_def, fileStep]
    | _ => cases hx

/-- filling a new entry completes its payload -/
theorem fill_complete (b : Bucket H F C) (now : Nat) (inc : Str) (h : H) (src : List (F × C)) (hn : (mkeys src).Nodup)
    (hp : mget b.payloads inc = none) :
    ∃ p, mget (applyAll b (fillSteps now inc h src)).payloads inc = some p ∧ Complete p src := by
  have hsplit : ∀ (b : Bucket H F C) l r, applyAll b (l ++ r) = applyAll (applyAll b l) r := fun b l r => List.foldl_append
  unfold fillSteps copySteps
  rw [hsplit, hsplit]
  have := mget_fileStep (H := H) ⟨mset b.flags inc now, mset (mset b.metas inc .torn) inc (.whole h now), mset b.payloads inc ((mget b.payloads inc).getD [])⟩ inc _ (copy_onFile inc src)
  simp only [mget_mset, if_true] at this
  have h2 := this.trans (congrArg (fun x : Option (Files F C) => some (List.foldl (fileStep inc) (x.getD []) _)) hp)
  exact ⟨_, h2, copy_complete (H := H) inc src hn [] (by simp)⟩

/-- a lookup depends on the metadata and flags alone -/
theorem getCached_congr (now : Nat) (scan : List Str) (b b' : Bucket H F C) (h : H)
    (hh : ∀ i ∈ scan, holds b' h i = holds b h i) (hf : ∀ i ∈ scan, holds b h i = true → mget b'.flags i = mget b.flags i) :
    getCached now scan b' h = getCached now scan b h := by
  have he : scan.find? (holds b' h) = scan.find? (holds b h) := by
    clear hf
    induction scan with
    | nil => rfl
    | cons x xs ih =>
      rw [List.find?_cons, List.find?_cons, hh x (by simp), ih (fun i hi => hh i (by simp [hi]))]
  unfold getCached
  rw [he]
  rcases hs : scan.find? (holds b h) with _ | inc
  · rfl
  · simp only
    rw [hf inc (List.mem_of_find?_eq_some hs) (List.find?_some hs)]

/-- names that do not hold the handle may be left out of the listing -/
theorem getCached_filter (now : Nat) (scan : List Str) (b : Bucket H F C) (h : H) (q : Str → Bool)
    (hq : ∀ i ∈ scan, holds b h i = true → q i = true) : getCached now (scan.filter q) b h = getCached now scan b h := by
  have he : (scan.filter q).find? (holds b h) = scan.find? (holds b h) := by
    induction scan with
    | nil => rfl
    | cons x xs ih =>
      have ih := ih (fun i hi => hq i (by simp [hi]))
      by_cases hx : q x = true
      · rw [List.filter_cons_of_pos hx, List.find?_cons, List.find?_cons, ih]
      · rw [List.filter_cons_of_neg hx, ih, List.find?_cons]
        have : holds b h x = false := by
          rcases hb : holds b h x with _ | _
          · rfl
          · exact (hx (hq x (by simp) hb)).elim
        simp [this]
  unfold getCached
  rw [he]

/-! ## A copy cut short -/

/-- the entry a step works on -/
def Step.inc : Step H F C → Str
  | .flag i _ => i
  | .unflag i => i
  | .tearMeta i => i
  | .writeMeta i _ _ => i
  | .dropMeta i => i
  | .mkdir i => i
  | .tearFile i _ => i
  | .writeFile i _ _ => i
  | .dropPayload i => i

/-- the step leaves the entry alone and names the handle nowhere -/
def Quiet (inc : Str) (h : H) (x : Step H F C) : Prop := x.inc ≠ inc ∧ ∀ i t, x ≠ .writeMeta i h t

/-- the entry is flagged and the only one to hold the handle -/
def StuckB (b : Bucket H F C) (inc : Str) (h : H) : Prop :=
  (∃ t, mget b.flags inc = some t) ∧ (∃ t, mget b.metas inc = some (.whole h t)) ∧
    ∀ i t, mget b.metas i = some (.whole h t) → i = inc

theorem stuck_apply {b : Bucket H F C} {inc : Str} {h : H} (hb : StuckB b inc h) {x : Step H F C} (hx : Quiet inc h x) :
    StuckB (x.apply b) inc h := by
  obtain ⟨⟨t, hf⟩, ⟨t', hm⟩, hu⟩ := hb
  obtain ⟨h1, h2⟩ := hx
  cases x with
  | flag i n =>
    refine ⟨⟨t, ?_⟩, ⟨t', hm⟩, hu⟩
    simp only [Step.apply, mget_mset]
    rw [if_neg (show ¬inc = i from Ne.symm h1)]; exact hf
  | unflag i =>
    refine ⟨⟨t, ?_⟩, ⟨t', hm⟩, hu⟩
    simp only [Step.apply, mget_mdel]
    rw [if_neg (show ¬inc = i from Ne.symm h1)]; exact hf
  | tearMeta i =>
    refine ⟨⟨t, hf⟩, ⟨t', ?_⟩, ?_⟩
    · simp only [Step.apply, mget_mset]
      rw [if_neg (show ¬inc = i from Ne.symm h1)]; exact hm
    · intro j u hj
      simp only [Step.apply, mget_mset] at hj
      split at hj
      · cases hj
      · exact hu j u hj
  | writeMeta i k n =>
    refine ⟨⟨t, hf⟩, ⟨t', ?_⟩, ?_⟩
    · simp only [Step.apply, mget_mset]
      rw [if_neg (show ¬inc = i from Ne.symm h1)]; exact hm
    · intro j u hj
      simp only [Step.apply, mget_mset] at hj
      split at hj
      · cases hj; exact (h2 i _ rfl).elim
      · exact hu j u hj
  | dropMeta i =>
    refine ⟨⟨t, hf⟩, ⟨t', ?_⟩, ?_⟩
    · simp only [Step.apply, mget_mdel]
      rw [if_neg (show ¬inc = i from Ne.symm h1)]; exact hm
    · intro j u hj
      simp only [Step.apply, mget_mdel] at hj
      split at hj
      · cases hj
      · exact hu j u hj
  | mkdir i => exact ⟨⟨t, hf⟩, ⟨t', hm⟩, hu⟩
  | tearFile i f => exact ⟨⟨t, hf⟩, ⟨t', hm⟩, hu⟩
  | writeFile i f c => exact ⟨⟨t, hf⟩, ⟨t', hm⟩, hu⟩
  | dropPayload i => exact ⟨⟨t, hf⟩, ⟨t', hm⟩, hu⟩

theorem stuck_applyAll {b : Bucket H F C} {inc : Str} {h : H} (hb : StuckB b inc h) {l : List (Step H F C)}
    (hl : ∀ x ∈ l, Quiet inc h x) : StuckB (applyAll b l) inc h := by
  induction l generalizing b with
  | nil => exact hb
  | cons x l ih => exact ih (stuck_apply hb (hl x (by simp))) (fun y hy => hl y (by simp [hy]))

/-- the whole system is stuck at the entry -/
def Stuck (s : Sys H F C) (inc : Str) (h : H) : Prop :=
  StuckB s.bucket inc h ∧ (∀ r ∈ s.readers, ∀ x ∈ r, Quiet inc h x) ∧ ∀ x ∈ s.adder, Quiet inc h x

theorem stuck_get {b : Bucket H F C} {inc : Str} {h : H} (hb : StuckB b inc h) {scan : List Str} (hs : ScanOk scan b) (now : Nat) (k : H) :
    (∀ x ∈ (getCached now scan b k).2.2, Quiet inc h x) ∧
    (k = h → ((getCached now scan b k).1 = .copying ∨ (getCached now scan b k).1 = .copyStalled)) := by
  obtain ⟨⟨t, hf⟩, ⟨t', hm⟩, hu⟩ := hb
  rcases getCached_cases now scan b k with ⟨hno, e⟩ | ⟨i, u, hmem, hh, hfi, e⟩ | ⟨i, hmem, hh, hfi, e⟩
  · rw [e]
    refine ⟨by simp, ?_⟩
    rintro rfl
    have := hno inc (hs.mem_iff.mpr (mem_mkeys_iff.mpr ⟨_, hm⟩))
    rw [holds_iff.mpr ⟨t', hm⟩] at this
    cases this
  · rw [e]
    refine ⟨by simp, fun _ => ?_⟩
    simp only
    split
    · exact .inr rfl
    · exact .inl rfl
  · rw [e]
    obtain ⟨u, hu'⟩ := holds_iff.mp hh
    have hne : i ≠ inc := by rintro rfl; rw [hf] at hfi; cases hfi
    have hk : k ≠ h := by rintro rfl; exact hne (hu i u hu')
    refine ⟨?_, fun he => (hk he).elim⟩
    intro x hx
    simp only [List.mem_cons, List.not_mem_nil, or_false] at hx
    rcases hx with rfl | rfl
    · exact ⟨hne, fun _ _ h => by cases h⟩
    · exact ⟨hne, fun _ _ h => by cases h; exact hk rfl⟩

theorem fill_quiet {now : Nat} {i inc : Str} {k h : H} {src : List (F × C)} (hi : i ≠ inc) (hk : k ≠ h) :
    ∀ x ∈ fillSteps now i k src, Quiet inc h x := by
  intro x hx
  simp only [fillSteps, copySteps, List.mem_append, List.mem_cons, List.not_mem_nil, or_false, List.mem_flatMap] at hx
  rcases hx with ((rfl | rfl | rfl) | rfl | ⟨q, _, rfl | rfl⟩) | rfl
  all_goals refine ⟨hi, ?_⟩
  all_goals intro j u hw
  all_goals first | cases hw; exact hk rfl | cases hw

theorem stuck_step {s s' : Sys H F C} {inc : Str} {h : H} (hi : Inv s) (hst : Stuck s inc h) (hstep : Sys.Step s s')
    (hn : s'.adds.length ≤ 26) : Stuck s' inc h := by
  obtain ⟨hb, hr, ha⟩ := hst
  cases hstep with
  | read _ k now scan hs =>
    refine ⟨hb, ?_, ha⟩
    intro r hrm
    rcases List.mem_cons.mp hrm with rfl | hrm
    · exact (stuck_get hb hs now k).1
    · exact hr r hrm
  | readStep b pre post x rest adder adds =>
    have hq := hr (x :: rest) (by simp)
    refine ⟨stuck_apply hb (hq x (by simp)), ?_, ha⟩
    intro r hrm
    simp only [List.mem_append, List.mem_cons] at hrm
    rcases hrm with hrm | rfl | hrm
    · exact hr r (by simp [hrm])
    · exact fun y hy => hq y (by simp [hy])
    · exact hr r (by simp [hrm])
  | readDies b pre post r adder adds =>
    refine ⟨hb, ?_, ha⟩
    intro r hrm
    refine hr r ?_
    simp only [List.mem_append, List.mem_cons] at hrm ⊢
    tauto
  | add _ k src now scan space hs hn' hidle =>
    refine ⟨hb, hr, ?_⟩
    simp only
    have hg := stuck_get hb hs now k
    rcases hgc : getCached now scan s.bucket k with ⟨st, o, steps⟩
    rw [hgc] at hg
    unfold addVariant
    rw [hgc]
    cases st with
    | notFound =>
      simp only
      split
      · have hk : k ≠ h := by
          intro he
          rcases hg.2 he with h | h <;> cases h
        have hl : Lettered s.adds.length scan := fun k hk => hi.letters k (hs.mem_iff.mp hk)
        simp only [List.length_cons] at hn
        obtain ⟨i, h1, h2, h3⟩ := next_fresh (by omega) hl
        have hne : nextIncrement scan ≠ inc := by
          intro he
          rw [he] at h3
          obtain ⟨t', hm⟩ := hb.2.1
          exact h3 (hs.mem_iff.mpr (mem_mkeys_iff.mpr ⟨_, hm⟩))
        intro x hx
        rcases List.mem_append.mp hx with hx | hx
        · exact hg.1 x hx
        · exact fill_quiet hne hk x hx
      · exact hg.1
    | _ => exact hg.1
  | addStep b readers x rest adds =>
    exact ⟨stuck_apply hb (ha x (by simp)), hr, fun y hy => ha y (by simp [hy])⟩
  | addDies => exact ⟨hb, hr, by intro x hx; cases hx⟩
  | remove _ k now scan hs hrd hidle =>
    refine ⟨?_, hr, ha⟩
    apply stuck_applyAll hb
    have hg := stuck_get hb hs now k
    simp only [removeVariant]
    rcases getCached_cases now scan s.bucket k with ⟨_, e⟩ | ⟨i, t, _, _, _, e⟩ | ⟨i, hm, hh, hf, e⟩
    · rw [e]; intro x hx; cases hx
    · rw [e]
      split
      · rename_i hx; split at hx <;> cases hx
      · intro x hx; cases hx
    · rw [e] at hg ⊢
      simp only
      intro x hx
      rcases List.mem_append.mp hx with hx | hx
      · exact hg.1 x hx
      · have hne : i ≠ inc := (hg.1 (.tearMeta i) (by simp)).1
        simp only [List.mem_cons, List.not_mem_nil, or_false] at hx
        rcases hx with rfl | rfl
        · exact ⟨hne, fun _ _ h => by cases h⟩
        · exact ⟨hne, fun _ _ h => by cases h⟩

theorem stuck_reachable {s s' : Sys H F C} {inc : Str} {h : H} (hs : s.Reachable) (hst : Stuck s inc h)
    (hr : Relation.ReflTransGen Sys.Step s s') (hn : s'.adds.length ≤ 26) : Stuck s' inc h := by
  induction hr with
  | refl => exact hst
  | tail hr' hstep ih =>
    have hle := Nat.le_trans (adds_grow hstep) hn
    exact stuck_step (inv_reachable (hs.trans hr') hle) (ih hle) hstep hn

/-! ## Cleaning -/

/-- old enough to go -/
def isStale (now maxAge : Nat) (b : Bucket H F C) (i : Str) : Prop :=
  (mget b.payloads i).isSome ∧ ∃ h t, mget b.metas i = some (.whole h t) ∧ now - t > maxAge

theorem clean_fold (now maxAge : Nat) (scan : Bucket H F C → List Str) (hscan : ∀ b, ScanOk (scan b) b) (hnow : now < 2 ^ 64)
    (l : List (Str × H)) (b : Bucket H F C) (hflag : ∀ i, mget b.flags i = none)
    (huniq : ∀ i j h t u, mget b.metas i = some (.whole h t) → mget b.metas j = some (.whole h u) → i = j)
    (hpast : ∀ i h t, mget b.metas i = some (.whole h t) → t ≤ now)
    (hl : ∀ p ∈ l, ∀ h t, mget b.metas p.1 = some (.whole h t) → h = p.2) :
    ∀ i, ((∃ h, (i, h) ∈ l) ∧ isStale now maxAge b i →
        mget (l.foldl (fun b p => cleanOne now maxAge scan b p.1 p.2) b).metas i = none ∧
        mget (l.foldl (fun b p => cleanOne now maxAge scan b p.1 p.2) b).payloads i = none) ∧
      (¬((∃ h, (i, h) ∈ l) ∧ isStale now maxAge b i) →
        mget (l.foldl (fun b p => cleanOne now maxAge scan b p.1 p.2) b).metas i = mget b.metas i ∧
        mget (l.foldl (fun b p => cleanOne now maxAge scan b p.1 p.2) b).payloads i = mget b.payloads i) := by
  induction l generalizing b with
  | nil => intro i; exact ⟨fun h => by simp at h, fun _ => ⟨rfl, rfl⟩⟩
  | cons p l ih =>
    obtain ⟨inc, h⟩ := p
    intro i
    rw [List.foldl_cons]
    by_cases hst : isStale now maxAge b inc
    · -- the entry goes
      obtain ⟨hp, h', t, hm, hold⟩ := hst
      have hh' : h' = h := hl (inc, h) (by simp) h' t hm
      subst hh'
      have hle := hpast _ _ _ hm
      have hwrap : (now + 2 ^ 64 - t) % 2 ^ 64 > maxAge := by
        have : now + 2 ^ 64 - t = (now - t) + 2 ^ 64 := by omega
        rw [this, Nat.add_mod_right, Nat.mod_eq_of_lt (by omega)]
        exact hold
      have hget : getCached now (scan b) b h' = (.found, some inc, [.tearMeta inc, .writeMeta inc h' now]) := by
        rcases getCached_cases now (scan b) b h' with ⟨hno, e⟩ | ⟨j, u, _, _, hfj, e⟩ | ⟨j, hmem, hh, hfj, e⟩
        · have := hno inc ((hscan b).mem_iff.mpr (mem_mkeys_iff.mpr ⟨_, hm⟩))
          rw [holds_iff.mpr ⟨t, hm⟩] at this
          cases this
        · rw [hflag j] at hfj; cases hfj
        · obtain ⟨u, hu⟩ := holds_iff.mp hh
          have : j = inc := huniq _ _ _ _ _ hu hm
          subst this
          exact e
      have hc : cleanOne now maxAge scan b inc h' =
          ⟨b.flags, mdel (mset (mset b.metas inc .torn) inc (.whole h' now)) inc, mdel b.payloads inc⟩ := by
        unfold cleanOne
        rw [if_pos hp, hm]
        simp only
        rw [if_pos hwrap]
        unfold removeVariant
        rw [hget]
        rfl
      have hmm : ∀ j, mget (cleanOne now maxAge scan b inc h').metas j = if j = inc then none else mget b.metas j := by
        intro j
        rw [hc]
        simp only [mget_mdel, mget_mset]
        by_cases he : j = inc <;> simp [he]
      have hpp : ∀ j, mget (cleanOne now maxAge scan b inc h').payloads j = if j = inc then none else mget b.payloads j := by
        intro j
        rw [hc]
        simp only [mget_mdel]
      have hsub : ∀ j k u, mget (cleanOne now maxAge scan b inc h').metas j = some (.whole k u) → mget b.metas j = some (.whole k u) := by
        intro j k u hj
        rw [hmm] at hj
        split at hj
        · cases hj
        · exact hj
      have := ih (cleanOne now maxAge scan b inc h') (by intro j; rw [hc]; exact hflag j)
        (fun i j k t u h1 h2 => huniq i j k t u (hsub _ _ _ h1) (hsub _ _ _ h2))
        (fun i k t h1 => hpast i k t (hsub _ _ _ h1))
        (fun p hp k t h1 => hl p (by simp [hp]) k t (hsub _ _ _ h1)) i
      by_cases he : i = inc
      · subst he
        refine ⟨fun _ => ?_, fun hno => (hno ⟨⟨h', by simp⟩, hp, h', t, hm, hold⟩).elim⟩
        have hns : ¬isStale now maxAge (cleanOne now maxAge scan b i h') i := by
          rintro ⟨hx, _⟩
          rw [hpp, if_pos rfl] at hx
          cases hx
        have := this.2 (fun hx => hns hx.2)
        rw [this.1, this.2, hmm, hpp, if_pos rfl, if_pos rfl]
        exact ⟨rfl, rfl⟩
      · have hiff : isStale now maxAge (cleanOne now maxAge scan b inc h') i ↔ isStale now maxAge b i := by
          unfold isStale
          rw [hmm, hpp, if_neg he, if_neg he]
        have hmem : (∃ k, (i, k) ∈ (inc, h') :: l) ↔ ∃ k, (i, k) ∈ l := by
          constructor
          · rintro ⟨k, hk⟩
            rcases List.mem_cons.mp hk with hk | hk
            · cases hk; exact (he rfl).elim
            · exact ⟨k, hk⟩
          · rintro ⟨k, hk⟩; exact ⟨k, by simp [hk]⟩
        rw [hmem, ← hiff]
        refine ⟨this.1, fun hno => ?_⟩
        have := this.2 hno
        rw [this.1, this.2, hmm, hpp, if_neg he, if_neg he]
        exact ⟨rfl, rfl⟩
    · have hc : cleanOne now maxAge scan b inc h = b := by
        unfold cleanOne
        by_cases hp : (mget b.payloads inc).isSome
        · rw [if_pos hp]
          rcases hm : mget b.metas inc with _ | (⟨k, t⟩ | _)
          · rfl
          · simp only
            rw [if_neg]
            intro hwrap
            have hle := hpast _ _ _ hm
            have : now + 2 ^ 64 - t = (now - t) + 2 ^ 64 := by omega
            rw [this, Nat.add_mod_right, Nat.mod_eq_of_lt (by omega)] at hwrap
            exact hst ⟨hp, k, t, hm, hwrap⟩
          · rfl
        · rw [if_neg hp]
      rw [hc]
      have := ih b hflag huniq hpast (fun p hp => hl p (by simp [hp])) i
      have hiff : ((∃ k, (i, k) ∈ (inc, h) :: l) ∧ isStale now maxAge b i) ↔ ((∃ k, (i, k) ∈ l) ∧ isStale now maxAge b i) := by
        constructor
        · rintro ⟨⟨k, hk⟩, h2⟩
          rcases List.mem_cons.mp hk with hk | hk
          · cases hk; exact (hst h2).elim
          · exact ⟨⟨k, hk⟩, h2⟩
        · rintro ⟨⟨k, hk⟩, h2⟩; exact ⟨⟨k, by simp [hk]⟩, h2⟩
      rw [hiff]
      exact this

end Rez.Payload
