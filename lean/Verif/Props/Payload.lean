import Verif.Lemmas.Payload
import Verif.Lemmas.Requirement
import Verif.Model.Handle
/-!
# The payload cache: C47–C50, C94–C97
-/
namespace Rez.Props
open Rez Rez.Payload Rez.Spec.Payload
variable {H F C : Type} [DecidableEq H] [DecidableEq F]

/-! ## C47: a variant reported as cached has its complete payload -/

/-- Up to 26 adds in a directory, one process adding at a time, any number of readers, removals that run alone; readers
and adder may die at any point.  At every moment, whatever is reported found is a complete copy of a source that was
added for this handle.  Missing: deaths inside a removal, two adders at once, a reader racing a removal, a 27th add. -/
theorem C47_found_complete_partial (s : Sys H F C) (hs : s.Reachable) (hn : s.adds.length ≤ 26) (now : Nat)
    (scan : List Str) (hscan : ScanOk scan s.bucket) (h : H) (inc : Str)
    (hg : (getCached now scan s.bucket h).1 = .found) (hi : (getCached now scan s.bucket h).2.1 = some inc) :
    ∃ p src, mget s.bucket.payloads inc = some p ∧ (h, src) ∈ s.adds ∧ Complete p src := by
  rcases getCached_cases now scan s.bucket h with ⟨_, e⟩ | ⟨i, t, _, _, _, e⟩ | ⟨i, _, hh, hf, e⟩
  · rw [e] at hg; cases hg
  · rw [e] at hg; simp only at hg; split at hg <;> cases hg
  · rw [e] at hi
    cases hi
    obtain ⟨t, ht⟩ := holds_iff.mp hh
    exact (inv_reachable hs hn).good _ h t ht hf

/-- An add that runs to its end: the variant is found, under any listing and at any later time, with exactly the files of
the source. -/
theorem C47_added_partial (s : Sys H F C) (hs : s.Reachable) (hn : s.adds.length < 26) (h : H) (src : List (F × C))
    (hsrc : (mkeys src).Nodup) (now : Nat) (scan : List Str) (hscan : ScanOk scan s.bucket) (space : Bool)
    (hc : (addVariant now scan space s.bucket h src).1 = .created) (now' : Nat) (scan' : List Str)
    (hscan' : ScanOk scan' (applyAll s.bucket (addVariant now scan space s.bucket h src).2.2)) :
    ∃ inc p, (getCached now' scan' (applyAll s.bucket (addVariant now scan space s.bucket h src).2.2) h).1 = .found ∧
      (getCached now' scan' (applyAll s.bucket (addVariant now scan space s.bucket h src).2.2) h).2.1 = some inc ∧
      (addVariant now scan space s.bucket h src).2.1 = some inc ∧
      mget (applyAll s.bucket (addVariant now scan space s.bucket h src).2.2).payloads inc = some p ∧ Complete p src := by
  have hinv := inv_reachable hs (Nat.le_of_lt hn)
  have hnf : (∀ inc ∈ scan, holds s.bucket h inc = false) ∧
      addVariant now scan space s.bucket h src = (.created, some (nextIncrement scan), fillSteps now (nextIncrement scan) h src) := by
    unfold addVariant at hc ⊢
    rcases getCached_cases now scan s.bucket h with ⟨hno, e⟩ | ⟨i, t, _, _, _, e⟩ | ⟨i, _, hh, hf, e⟩
    · rw [e] at hc ⊢
      simp only at hc ⊢
      refine ⟨hno, ?_⟩
      by_cases hsp : space = true
      · rw [if_pos hsp]; rfl
      · rw [if_neg hsp] at hc; cases hc
    · rw [e] at hc
      by_cases h300 : now - t > 300
      · rw [if_pos h300] at hc; cases hc
      · rw [if_neg h300] at hc; cases hc
    · rw [e] at hc; cases hc
  obtain ⟨hno, he⟩ := hnf
  obtain ⟨i, _, _, hfresh⟩ := next_fresh hn (fun k hk => hinv.letters k (hscan.mem_iff.mp hk) : Lettered s.adds.length scan)
  have hmeta : nextIncrement scan ∉ mkeys s.bucket.metas := fun h => hfresh (hscan.mem_iff.mpr h)
  have hp : mget s.bucket.payloads (nextIncrement scan) = none := by
    rcases hp : mget s.bucket.payloads (nextIncrement scan) with _ | p
    · rfl
    · exact (hmeta (hinv.payload _ p hp)).elim
  rw [he] at hscan' ⊢
  obtain ⟨hm', hf', _⟩ := fill_effect s.bucket now (nextIncrement scan) h src
  obtain ⟨p, hp1, hp2⟩ := fill_complete s.bucket now (nextIncrement scan) h src hsrc hp
  refine ⟨nextIncrement scan, p, ?_, ?_, rfl, hp1, hp2⟩
  all_goals
    rcases getCached_cases now' scan' (applyAll s.bucket (fillSteps now (nextIncrement scan) h src)) h with ⟨hno', e⟩ | ⟨i, t, _, hh, hfl, e⟩ | ⟨i, _, hh, hf, e⟩
  · have := hno' (nextIncrement scan) (hscan'.mem_iff.mpr (mem_mkeys_iff.mpr ⟨_, by rw [hm', if_pos rfl]⟩))
    rw [holds_iff.mpr ⟨now, by rw [hm', if_pos rfl]⟩] at this
    cases this
  · obtain ⟨u, hu⟩ := holds_iff.mp hh
    rw [hm'] at hu
    by_cases hi : i = nextIncrement scan
    · rw [hf', if_pos hi] at hfl; cases hfl
    · rw [if_neg hi] at hu
      have := hno i (hscan.mem_iff.mpr (mem_mkeys_iff.mpr ⟨_, hu⟩))
      rw [holds_iff.mpr ⟨u, hu⟩] at this
      cases this
  · simp only; rw [e]
  · have := hno' (nextIncrement scan) (hscan'.mem_iff.mpr (mem_mkeys_iff.mpr ⟨_, by rw [hm', if_pos rfl]⟩))
    rw [holds_iff.mpr ⟨now, by rw [hm', if_pos rfl]⟩] at this
    cases this
  · obtain ⟨u, hu⟩ := holds_iff.mp hh
    rw [hm'] at hu
    by_cases hi : i = nextIncrement scan
    · rw [hf', if_pos hi] at hfl; cases hfl
    · rw [if_neg hi] at hu
      have := hno i (hscan.mem_iff.mpr (mem_mkeys_iff.mpr ⟨_, hu⟩))
      rw [holds_iff.mpr ⟨u, hu⟩] at this
      cases this
  · simp only; rw [e]
    obtain ⟨u, hu⟩ := holds_iff.mp hh
    rw [hm'] at hu
    by_cases hi : i = nextIncrement scan
    · rw [hi]
    · rw [if_neg hi] at hu
      have := hno i (hscan.mem_iff.mpr (mem_mkeys_iff.mpr ⟨_, hu⟩))
      rw [holds_iff.mpr ⟨u, hu⟩] at this
      cases this

/-- an empty directory -/
def noBucket : Bucket Nat Nat Nat := ⟨[], [], []⟩

/-- two files -/
def twoFiles : List (Nat × Nat) := [(1, 10), (2, 20)]

/-- the steps of adding them as variant 7 to an empty directory -/
def addSeven : List (Payload.Step Nat Nat Nat) := (addVariant 5 [] true noBucket 7 twoFiles).2.2

/-- the directory afterwards -/
def sevenBucket : Bucket Nat Nat Nat := applyAll noBucket addSeven

/-- it is reached -/
theorem seven_reachable : (⟨sevenBucket, [], [], [(7, twoFiles)]⟩ : Sys Nat Nat Nat).Reachable := by
  refine .head (Sys.Step.add Sys.empty 7 twoFiles 5 [] true (List.Perm.refl _) (by decide) rfl) ?_
  have := run_adder (H := Nat) noBucket [] addSeven [] [(7, twoFiles)]
  rw [List.append_nil] at this
  exact this

/-- the hypotheses are met -/
example : (⟨sevenBucket, [], [], [(7, twoFiles)]⟩ : Sys Nat Nat Nat).Reachable ∧ ScanOk [c!"a"] sevenBucket ∧
    (getCached 6 [c!"a"] sevenBucket 7).1 = .found ∧ (getCached 6 [c!"a"] sevenBucket 7).2.1 = some c!"a" :=
  ⟨seven_reachable, by unfold ScanOk; decide +kernel, by decide +kernel, by decide +kernel⟩

/-- A crash inside a removal, after the payload was moved away: the variant is still reported found. -/
theorem C47_remove_crash_false : ∃ (s : Sys Nat Nat Nat) (h : Nat) (done : List (Payload.Step Nat Nat Nat)), s.Reachable ∧
    s.readers = [] ∧ s.adder = [] ∧ done <+: (removeVariant 6 [c!"a"] s.bucket h).2.2 ∧
    (getCached 7 [c!"a"] (applyAll s.bucket done) h).1 = .found ∧
    (getCached 7 [c!"a"] (applyAll s.bucket done) h).2.1 = some c!"a" ∧
    mget (applyAll s.bucket done).payloads c!"a" = none :=
  ⟨_, 7, [.tearMeta c!"a", .writeMeta c!"a" 7 6, .dropPayload c!"a"], seven_reachable, rfl, rfl,
    ⟨[.dropMeta c!"a"], by rfl⟩, by decide +kernel, by decide +kernel, by decide +kernel⟩

/-! ## C48: caching one variant never disturbs another -/

/-- Below 26 adds, an add that runs to its end changes nothing for any other handle: each lookup gives the same answer as
before, and the payloads it leads to are the same. -/
theorem C48_add_partial (s : Sys H F C) (hs : s.Reachable) (hn : s.adds.length < 26) (h k : H) (hne : k ≠ h)
    (src : List (F × C)) (now : Nat) (scan : List Str) (hscan : ScanOk scan s.bucket) (space : Bool)
    (now' : Nat) (scan' : List Str)
    (hscan' : ScanOk scan' (applyAll s.bucket (addVariant now scan space s.bucket h src).2.2)) :
    getCached now' scan' (applyAll s.bucket (addVariant now scan space s.bucket h src).2.2) k =
      getCached now' (scan'.filter fun i => decide (i ∈ mkeys s.bucket.metas)) s.bucket k ∧
    ∀ i ∈ mkeys s.bucket.metas,
      mget (applyAll s.bucket (addVariant now scan space s.bucket h src).2.2).payloads i = mget s.bucket.payloads i := by
  have hinv := inv_reachable hs (Nat.le_of_lt hn)
  -- what the add does to the entries
  suffices hkey : ∃ inc, (inc ∈ mkeys s.bucket.metas → (holds s.bucket k inc = false)) ∧
      (∀ i, i ≠ inc → mget (applyAll s.bucket (addVariant now scan space s.bucket h src).2.2).metas i = mget s.bucket.metas i ∧
        mget (applyAll s.bucket (addVariant now scan space s.bucket h src).2.2).flags i = mget s.bucket.flags i) ∧
      (∀ t, mget (applyAll s.bucket (addVariant now scan space s.bucket h src).2.2).metas inc ≠ some (.whole k t)) ∧
      ∀ i ∈ mkeys s.bucket.metas,
        mget (applyAll s.bucket (addVariant now scan space s.bucket h src).2.2).payloads i = mget s.bucket.payloads i by
    obtain ⟨inc, h1, h2, h3, h4⟩ := hkey
    refine ⟨?_, h4⟩
    have hnot : holds (applyAll s.bucket (addVariant now scan space s.bucket h src).2.2) k inc = false := by
      rcases hb : holds (applyAll s.bucket (addVariant now scan space s.bucket h src).2.2) k inc with _ | _
      · rfl
      · obtain ⟨t, ht⟩ := holds_iff.mp hb
        exact (h3 t ht).elim
    have hsame : ∀ i, i ≠ inc → holds (applyAll s.bucket (addVariant now scan space s.bucket h src).2.2) k i = holds s.bucket k i := by
      intro i hi
      unfold holds
      rw [(h2 i hi).1]
    rw [← getCached_filter now' scan' _ k (fun i => decide (i ∈ mkeys s.bucket.metas))]
    · apply getCached_congr
      · intro i hi
        by_cases he : i = inc
        · subst he
          rw [hnot, h1]
          exact of_decide_eq_true (List.mem_filter.mp hi).2
        · exact hsame i he
      · intro i hi hh
        by_cases he : i = inc
        · subst he
          rw [h1 (of_decide_eq_true (List.mem_filter.mp hi).2)] at hh
          cases hh
        · exact (h2 i he).2
    · intro i hi hh
      have he : i ≠ inc := by rintro rfl; rw [hnot] at hh; cases hh
      rw [hsame i he] at hh
      obtain ⟨t, ht⟩ := holds_iff.mp hh
      exact decide_eq_true (mem_mkeys_iff.mpr ⟨_, ht⟩)
  unfold addVariant
  rcases getCached_cases now scan s.bucket h with ⟨hno, e⟩ | ⟨i, t, hmem, hh, hfl, e⟩ | ⟨i, hmem, hh, hf, e⟩
  · rw [e]
    simp only
    by_cases hsp : space = true
    · rw [if_pos hsp]
      simp only [List.nil_append]
      obtain ⟨_, _, _, hfresh⟩ := next_fresh hn (fun k hk => hinv.letters k (hscan.mem_iff.mp hk) : Lettered s.adds.length scan)
      have hmeta : nextIncrement scan ∉ mkeys s.bucket.metas := fun h => hfresh (hscan.mem_iff.mpr h)
      obtain ⟨hm', hf', hp'⟩ := fill_effect s.bucket now (nextIncrement scan) h src
      refine ⟨nextIncrement scan, fun hx => (hmeta hx).elim, ?_, ?_, ?_⟩
      · intro i hi
        rw [hm', hf', if_neg hi, if_neg hi]
        exact ⟨rfl, rfl⟩
      · intro t ht
        rw [hm', if_pos rfl] at ht
        cases ht
        exact hne rfl
      · intro i hi
        exact hp' i (by rintro rfl; exact hmeta hi)
    · rw [if_neg hsp]
      refine ⟨[], fun hx => ?_, fun i _ => ⟨rfl, rfl⟩, ?_, fun i _ => rfl⟩
      · obtain ⟨i, _, hi⟩ := hinv.letters _ hx; cases hi
      · intro t ht
        obtain ⟨i, _, hi⟩ := hinv.letters _ (mem_mkeys_iff.mpr ⟨_, ht⟩); cases hi
  · rw [e]
    refine ⟨[], fun hx => ?_, fun j _ => ?_, ?_, fun j _ => ?_⟩
    · obtain ⟨i, _, hi⟩ := hinv.letters _ hx; cases hi
    · by_cases h300 : now - t > 300
      · rw [if_pos h300]; exact ⟨rfl, rfl⟩
      · rw [if_neg h300]; exact ⟨rfl, rfl⟩
    · intro u hu
      by_cases h300 : now - t > 300
      · rw [if_pos h300] at hu
        obtain ⟨i, _, hi⟩ := hinv.letters _ (mem_mkeys_iff.mpr ⟨_, hu⟩); cases hi
      · rw [if_neg h300] at hu
        obtain ⟨i, _, hi⟩ := hinv.letters _ (mem_mkeys_iff.mpr ⟨_, hu⟩); cases hi
    · by_cases h300 : now - t > 300
      · rw [if_pos h300]; rfl
      · rw [if_neg h300]; rfl
  · rw [e]
    refine ⟨i, fun _ => ?_, fun j hj => ?_, ?_, fun j _ => rfl⟩
    · obtain ⟨t, ht⟩ := holds_iff.mp hh
      unfold holds
      rw [ht]
      simp only [beq_eq_false_iff_ne]
      exact Ne.symm hne
    · simp only [applyAll, List.foldl_cons, List.foldl_nil, Payload.Step.apply, mget_mset, if_neg hj, and_self]
    · intro t ht
      simp only [applyAll, List.foldl_cons, List.foldl_nil, Payload.Step.apply, mget_mset, if_true] at ht
      cases ht
      exact hne rfl

/-- adds of the handles `0, 1, …, n-1` one after the other, each with one file named like the handle -/
def manyAdds : Nat → Bucket Nat Nat Nat
  | 0 => noBucket
  | n + 1 => applyAll (manyAdds n) (addVariant 5 (mkeys (manyAdds n).metas) true (manyAdds n) n [(n, n)]).2.2

/-- The 28th variant of a directory takes the place of the 27th: `"z"` stays the greatest name, so `"aa"` comes next
again. -/
theorem C48_many_false : (getCached 6 (mkeys (manyAdds 27).metas) (manyAdds 27) 26).1 = .found ∧
    (getCached 6 (mkeys (manyAdds 28).metas) (manyAdds 28) 26).1 = .notFound := ⟨by decide +kernel, by decide +kernel⟩

/-- And it is itself reported found with a payload that also has the other's file. -/
theorem C47_mixed_false : (getCached 6 (mkeys (manyAdds 28).metas) (manyAdds 28) 27).1 = .found ∧
    (getCached 6 (mkeys (manyAdds 28).metas) (manyAdds 28) 27).2.1 = some c!"aa" ∧
    ∃ p, mget (manyAdds 28).payloads c!"aa" = some p ∧ ¬Complete p [(27, 27)] := by
  refine ⟨by decide +kernel, by decide +kernel, [(27, some 27), (26, some 26)], by decide +kernel, ?_⟩
  intro h
  have := h 26
  revert this
  decide

/-! ## C49: concurrent cachers of one variant -/

/-- Two processes add the same variant at once: both take the name `"a"`.  The second gets as far as making the
directory, the first runs to its end and takes the flag away, the second goes on: the variant is reported found while a
file of it is cut short. -/
theorem C49_two_writers_false : ∃ (x y z : List (Payload.Step Nat Nat Nat)),
    (addVariant 5 [] true noBucket 7 twoFiles).2.2 = x ++ y ++ z ∧
    (getCached 6 [c!"a"] (applyAll (applyAll (applyAll noBucket x) addSeven) y) 7).1 = .found ∧
    ∃ p, mget (applyAll (applyAll (applyAll noBucket x) addSeven) y).payloads c!"a" = some p ∧ ¬Complete p twoFiles := by
  refine ⟨addSeven.take 4, (addSeven.drop 4).take 1, addSeven.drop 5, by rfl, by decide +kernel, [(1, none), (2, some 20)], by decide +kernel, ?_⟩
  intro h
  have := h 1
  revert this
  decide

/-- A reader that found the variant, a removal that runs to its end, then the reader's note of the access: the variant is
reported found, with no payload. -/
theorem C49_reader_false : ∃ (s : Sys Nat Nat Nat), s.Reachable ∧
    (removeVariant 6 [c!"a"] s.bucket 7).1 = .removed ∧
    (getCached 7 [c!"a"] (applyAll (applyAll s.bucket (removeVariant 6 [c!"a"] s.bucket 7).2.2) (getCached 6 [c!"a"] s.bucket 7).2.2) 7).1 = .found ∧
    (getCached 7 [c!"a"] (applyAll (applyAll s.bucket (removeVariant 6 [c!"a"] s.bucket 7).2.2) (getCached 6 [c!"a"] s.bucket 7).2.2) 7).2.1 = some c!"a" ∧
    mget (applyAll (applyAll s.bucket (removeVariant 6 [c!"a"] s.bucket 7).2.2) (getCached 6 [c!"a"] s.bucket 7).2.2).payloads c!"a" = none :=
  ⟨_, seven_reachable, by decide +kernel, by decide +kernel, by decide +kernel, by decide +kernel⟩

/-! ## C50: disk space and cleaning -/

/-- While the copy fits at all, the check is exact. -/
theorem C50_space_partial (available needed minFree : Nat) (ha : available < 2 ^ 64) (hfit : needed ≤ available) :
    checkDiskSpace available needed minFree = true ↔ available > needed + minFree := by
  unfold checkDiskSpace
  rw [decide_eq_true_eq]
  have : available + 2 ^ 64 - needed = (available - needed) + 2 ^ 64 := by omega
  rw [this, Nat.add_mod_right, Nat.mod_eq_of_lt (by omega)]
  omega

example : checkDiskSpace 1000 300 600 = true ∧ checkDiskSpace 1000 300 700 = false := by decide

/-- If the copy is larger than the free space the difference wraps and the check passes. -/
theorem C50_space_false : ∃ available needed minFree, checkDiskSpace available needed minFree = true ∧
    needed > available ∧ 0 < minFree := ⟨10, 20, 104857600, by decide, by decide, by decide⟩

/-- The public check is exact while the sum does not wrap. -/
theorem C50_requirements_partial (available size minFree : Nat) (hs : size + minFree < 2 ^ 64) :
    meetsSpace available size minFree = true ↔ available > size + minFree := by
  unfold meetsSpace
  rw [decide_eq_true_eq, Nat.mod_eq_of_lt hs]

example : meetsSpace 1000 300 600 = true ∧ meetsSpace 1000 300 700 = false := by decide

/-- With a huge minimum the sum wraps and the check passes. -/
theorem C50_requirements_false : ∃ available size minFree, size < 2 ^ 64 ∧ minFree < 2 ^ 64 ∧
    meetsSpace available size minFree = true ∧ available < minFree := ⟨10, 8, 2 ^ 64 - 4, by decide, by decide, by decide, by decide⟩

/-- With no copy flags, one entry per handle and no access time in the future, `clean` removes exactly the entries with a
payload whose last access is longer ago than the limit, and leaves everything else as it is. -/
theorem C50_clean_partial (now maxAge : Nat) (scan : Bucket H F C → List Str) (hscan : ∀ b, ScanOk (scan b) b)
    (hnow : now < 2 ^ 64) (b : Bucket H F C) (hflag : ∀ i, mget b.flags i = none)
    (huniq : ∀ i j h t u, mget b.metas i = some (.whole h t) → mget b.metas j = some (.whole h u) → i = j)
    (hpast : ∀ i h t, mget b.metas i = some (.whole h t) → t ≤ now) (i : Str) :
    ((∃ p h t, mget b.payloads i = some p ∧ mget b.metas i = some (.whole h t) ∧ now - t > maxAge) →
      mget (clean now maxAge scan b).metas i = none ∧ mget (clean now maxAge scan b).payloads i = none) ∧
    ((¬∃ p h t, mget b.payloads i = some p ∧ mget b.metas i = some (.whole h t) ∧ now - t > maxAge) →
      mget (clean now maxAge scan b).metas i = mget b.metas i ∧
      mget (clean now maxAge scan b).payloads i = mget b.payloads i) := by
  have hl : ∀ p ∈ (listed (scan b) b).filter fun p => (mget b.payloads p.1).isSome, ∀ h t, mget b.metas p.1 = some (.whole h t) → h = p.2 := by
    intro p hp h t hm
    have hp := (List.mem_filter.mp hp).1
    unfold listed at hp
    obtain ⟨j, _, hj⟩ := List.mem_filterMap.mp hp
    rcases hmj : mget b.metas j with _ | (⟨k, u⟩ | _)
    · rw [hmj] at hj; cases hj
    · rw [hmj] at hj
      cases hj
      simp only at hm
      rw [hmj] at hm
      cases hm
      rfl
    · rw [hmj] at hj; cases hj
  have := clean_fold now maxAge scan hscan hnow _ b hflag huniq hpast hl i
  have hiff : ((∃ h, (i, h) ∈ (listed (scan b) b).filter fun p => (mget b.payloads p.1).isSome) ∧ isStale now maxAge b i) ↔
      ∃ p h t, mget b.payloads i = some p ∧ mget b.metas i = some (.whole h t) ∧ now - t > maxAge := by
    constructor
    · rintro ⟨_, h1, h, t, h2, h3⟩
      obtain ⟨p, hp⟩ := Option.isSome_iff_exists.mp h1
      exact ⟨p, h, t, hp, h2, h3⟩
    · rintro ⟨p, h, t, hp, hm, ho⟩
      refine ⟨⟨h, List.mem_filter.mpr ⟨?_, by simp [hp]⟩⟩, by simp [hp], h, t, hm, ho⟩
      unfold listed
      refine List.mem_filterMap.mpr ⟨i, (hscan b).mem_iff.mpr (mem_mkeys_iff.mpr ⟨_, hm⟩), ?_⟩
      rw [hm]
  rw [hiff] at this
  exact this

/-- the hypotheses are met, and both cases occur -/
example : let b : Bucket Nat Nat Nat := ⟨[], [(c!"a", .whole 1 100), (c!"b", .whole 2 900)], [(c!"a", []), (c!"b", [])]⟩
    mget (clean 1000 500 (fun b => mkeys b.metas) b).payloads c!"a" = none ∧
    mget (clean 1000 500 (fun b => mkeys b.metas) b).payloads c!"b" = some [] := by decide +kernel

/-- An access time one second in the future makes the difference wrap: the entry just used is removed. -/
theorem C50_clock_false : ∃ b : Bucket Nat Nat Nat, (∃ t, mget b.metas c!"a" = some (.whole 1 t) ∧ 1000 < t) ∧
    (mget b.payloads c!"a").isSome ∧ mget (clean 1000 500 (fun b => mkeys b.metas) b).payloads c!"a" = none :=
  ⟨⟨[], [(c!"a", .whole 1 1001)], [(c!"a", [])]⟩, ⟨1001, by rfl, by decide⟩, by decide, by decide +kernel⟩

/-! ## C94: different variants are told apart -/

/-- The text by which handles are compared tells handles without attributes apart if names and versions have no comma. -/
theorem C94_text_partial (a b : Handle.Handle) (ha : a.attributes = []) (hb : b.attributes = [])
    (hna : ',' ∉ a.name) (hnb : ',' ∉ b.name) (hva : ∀ v, a.version = some v → ',' ∉ v) (hvb : ∀ v, b.version = some v → ',' ∉ v)
    (h : Handle.repr a = Handle.repr b) : a = b := by
  have key : ∀ (x y r s : Str), ',' ∉ x → ',' ∉ y → (∀ c, r.head? = some c → c = ',') → (∀ c, s.head? = some c → c = ',') →
      x ++ r = y ++ s → x = y ∧ r = s := by
    intro x
    induction x with
    | nil =>
      intro y r s _ hy hr _ h
      rcases y with _ | ⟨c, y⟩
      · exact ⟨rfl, h⟩
      · rw [List.nil_append] at h
        have := hr c (by rw [h]; rfl)
        subst this
        simp at hy
    | cons c x ih =>
      intro y r s hx hy hr hs h
      rcases y with _ | ⟨d, y⟩
      · rw [List.nil_append] at h
        have := hs c (by rw [← h]; rfl)
        subst this
        simp at hx
      · simp only [List.cons_append, List.cons.injEq] at h
        obtain ⟨rfl, h⟩ := h
        simp only [List.mem_cons, not_or] at hx hy
        obtain ⟨rfl, h2⟩ := ih y r s hx.2 hy.2 hr hs h
        exact ⟨rfl, h2⟩
  have hidx : ∀ (o : Option Nat) c, (Handle.indexPart o).head? = some c → c = ',' := by
    intro o c h
    rcases o with _ | i
    · cases h
    · cases h; rfl
  have hver : ∀ (o : Option Str) (i : Option Nat) c, (Handle.versionPart o ++ Handle.indexPart i).head? = some c → c = ',' := by
    intro o i c h
    rcases o with _ | v
    · exact hidx i c h
    · cases h; rfl
  obtain ⟨an, av, ai, aa⟩ := a
  obtain ⟨bn, bv, bi, ba⟩ := b
  simp only at ha hb hna hnb hva hvb
  subst ha hb
  simp only [Handle.repr, List.flatMap_nil, List.append_nil, List.append_assoc] at h
  have h0 := List.append_cancel_left h
  obtain ⟨hn, h1⟩ := key an bn _ _ hna hnb (hver av ai) (hver bv bi) h0
  subst hn
  clear h h0
  have hvi : av = bv ∧ Handle.indexPart ai = Handle.indexPart bi := by
    rcases av with _ | v <;> rcases bv with _ | w
    · exact ⟨rfl, h1⟩
    · exfalso
      rcases ai with _ | i
      · cases h1
      · simp [Handle.versionPart, Handle.indexPart] at h1
    · exfalso
      rcases bi with _ | i
      · cases h1
      · simp [Handle.versionPart, Handle.indexPart] at h1
    · simp only [Handle.versionPart, List.append_assoc] at h1
      have h2 := List.append_cancel_left h1
      obtain ⟨hv, h3⟩ := key v w _ _ (hva v rfl) (hvb w rfl) (hidx ai) (hidx bi) h2
      exact ⟨by rw [hv], h3⟩
  obtain ⟨hv, h4⟩ := hvi
  subst hv
  have : ai = bi := by
    rcases ai with _ | i <;> rcases bi with _ | j
    · rfl
    · cases h4
    · cases h4
    · have h5 := List.append_cancel_left (as := c!", index=") h4
      rw [decimal_inj h5]
  rw [this]

example : Handle.repr ⟨c!"maya", some c!"2024.1", some 0, []⟩ = c!"name=maya, version=2024.1, index=0" := by decide +kernel

/-- An attribute called `index` reads like an index: two handles share one entry. -/
theorem C94_attribute_false : ∃ a b : Handle.Handle, a.index ≠ b.index ∧ a.attributes ≠ b.attributes ∧ Handle.repr a = Handle.repr b :=
  ⟨⟨c!"maya", some c!"1", some 0, []⟩, ⟨c!"maya", some c!"1", none, [(c!"index", c!"0")]⟩, by decide, by decide, by decide +kernel⟩

/-! ## C95: a copy that was cut short can be made again -/

/-- It never can.  Take any quiet reachable directory in which the variant is not found, begin an add and let the process
die anywhere between the metadata and the end of the copy.  Whatever readers, adds and removals follow (up to 26 adds), the
variant is reported as being copied, or as stalled, for ever: adds return without doing anything and removals refuse. -/
theorem C95_crashed_copy_false (s : Sys H F C) (hs : s.Reachable) (hq : s.readers = []) (hidle : s.adder = [])
    (h : H) (src : List (F × C)) (hsrc : (mkeys src).Nodup) (now : Nat) (scan : List Str) (hscan : ScanOk scan s.bucket)
    (hnf : (getCached now scan s.bucket h).1 = .notFound)
    (done left : List (Payload.Step H F C)) (hsplit : (addVariant now scan true s.bucket h src).2.2 = done ++ left)
    (h3 : 3 ≤ done.length) (hcut : left ≠ []) (s' : Sys H F C)
    (hlater : Relation.ReflTransGen Sys.Step ⟨applyAll s.bucket done, [], [], (h, src) :: s.adds⟩ s')
    (hn : s'.adds.length ≤ 26) (now' : Nat) (scan' : List Str) (hscan' : ScanOk scan' s'.bucket) (src' : List (F × C)) :
    ((getCached now' scan' s'.bucket h).1 = .copying ∨ (getCached now' scan' s'.bucket h).1 = .copyStalled) ∧
    (addVariant now' scan' true s'.bucket h src').2.2 = [] ∧ (removeVariant now' scan' s'.bucket h).2.2 = [] := by
  have hno : (∀ inc ∈ scan, holds s.bucket h inc = false) ∧
      getCached now scan s.bucket h = (.notFound, none, []) := by
    rcases getCached_cases now scan s.bucket h with ⟨hno, e⟩ | ⟨i, t, _, _, _, e⟩ | ⟨i, _, hh, hf, e⟩
    · exact ⟨hno, e⟩
    · rw [e] at hnf; simp only at hnf; split at hnf <;> cases hnf
    · rw [e] at hnf; cases hnf
  obtain ⟨hno, hg⟩ := hno
  have hsteps : (addVariant now scan true s.bucket h src).2.2 = fillSteps now (nextIncrement scan) h src := by
    unfold addVariant
    rw [hg]
    rfl
  -- the crashed state is reachable
  have hreach : (⟨applyAll s.bucket done, [], [], (h, src) :: s.adds⟩ : Sys H F C).Reachable := by
    refine Relation.ReflTransGen.trans hs ?_
    refine .head (Sys.Step.add s h src now scan true hscan hsrc hidle) ?_
    rw [hsplit, hq]
    refine (run_adder s.bucket [] done left _).tail ?_
    exact Sys.Step.addDies _
  -- it is stuck
  have hstuck : Stuck ⟨applyAll s.bucket done, [], [], (h, src) :: s.adds⟩ (nextIncrement scan) h := by
    refine ⟨?_, (fun r hr => by cases hr), (fun x hx => by cases hx)⟩
    rw [hsteps] at hsplit
    -- `done` is the first three steps and a part of the copying
    obtain ⟨d, rfl⟩ : ∃ d, done = [.flag (nextIncrement scan) now, .tearMeta (nextIncrement scan), .writeMeta (nextIncrement scan) h now] ++ d := by
      rcases done with _ | ⟨x, _ | ⟨y, _ | ⟨z, d⟩⟩⟩
      · simp at h3
      · simp at h3
      · simp at h3
      · simp only [fillSteps, List.cons_append, List.nil_append, List.cons.injEq] at hsplit
        exact ⟨d, by rw [hsplit.1, hsplit.2.1, hsplit.2.2.1]; rfl⟩
    simp only [fillSteps, List.append_assoc] at hsplit
    have hsplit := List.append_cancel_left hsplit
    have hd : ∀ x ∈ d, x = .mkdir (nextIncrement scan) ∨ OnFile (nextIncrement scan) x := by
      intro x hx
      have hpre : d <+: copySteps (nextIncrement scan) src := by
        rcases left.eq_nil_or_concat with h0 | ⟨left', y, rfl⟩
        · exact (hcut h0).elim
        · rw [List.concat_eq_append, ← List.append_assoc] at hsplit
          have := List.append_inj_left' hsplit rfl
          exact ⟨left', this.symm⟩
      have hx := hpre.subset hx
      simp only [copySteps, List.mem_cons] at hx
      rcases hx with hx | hx
      · exact .inl hx
      · exact .inr (copy_onFile _ _ x hx)
    -- copying leaves flags and metadata
    have hkeep : ∀ (d : List (Payload.Step H F C)) (b : Bucket H F C), (∀ x ∈ d, x = .mkdir (nextIncrement scan) ∨ OnFile (nextIncrement scan) x) →
        (applyAll b d).metas = b.metas ∧ (applyAll b d).flags = b.flags := by
      intro d
      induction d with
      | nil => intro b _; exact ⟨rfl, rfl⟩
      | cons x d ih =>
        intro b hb
        obtain ⟨h1, h2⟩ := ih (x.apply b) (fun y hy => hb y (by simp [hy]))
        have : (x.apply b).metas = b.metas ∧ (x.apply b).flags = b.flags := by
          rcases hb x (by simp) with rfl | hx
          · exact ⟨rfl, rfl⟩
          · cases x <;> first | exact ⟨rfl, rfl⟩ | cases hx
        exact ⟨h1.trans this.1, h2.trans this.2⟩
    obtain ⟨hkm, hkf⟩ := hkeep d (applyAll s.bucket [.flag (nextIncrement scan) now, .tearMeta (nextIncrement scan), .writeMeta (nextIncrement scan) h now]) hd
    have happ : applyAll s.bucket ([.flag (nextIncrement scan) now, .tearMeta (nextIncrement scan), .writeMeta (nextIncrement scan) h now] ++ d) =
        applyAll (applyAll s.bucket [.flag (nextIncrement scan) now, .tearMeta (nextIncrement scan), .writeMeta (nextIncrement scan) h now]) d := List.foldl_append
    simp only
    rw [happ]
    refine ⟨⟨now, ?_⟩, ⟨now, ?_⟩, ?_⟩
    · rw [hkf]; simp [applyAll, Payload.Step.apply, mget_mset]
    · rw [hkm]; simp [applyAll, Payload.Step.apply, mget_mset]
    · intro i t hi
      rw [hkm] at hi
      simp only [applyAll, List.foldl_cons, List.foldl_nil, Payload.Step.apply, mget_mset] at hi
      by_cases he : i = nextIncrement scan
      · exact he
      · rw [if_neg he, if_neg he] at hi
        have := hno i (hscan.mem_iff.mpr (mem_mkeys_iff.mpr ⟨_, hi⟩))
        rw [holds_iff.mpr ⟨t, hi⟩] at this
        cases this
  have hst := stuck_reachable hreach hstuck hlater hn
  have hget := (stuck_get hst.1 hscan' now' h).2 rfl
  refine ⟨hget, ?_, ?_⟩
  all_goals
    rcases getCached_cases now' scan' s'.bucket h with ⟨_, e⟩ | ⟨i, t, _, _, _, e⟩ | ⟨i, _, _, _, e⟩
  · rw [e] at hget; rcases hget with h | h <;> cases h
  · unfold addVariant
    rw [e]
    by_cases h300 : now' - t > 300
    · rw [if_pos h300]
    · rw [if_neg h300]
  · rw [e] at hget; rcases hget with h | h <;> cases h
  · rw [e] at hget; rcases hget with h | h <;> cases h
  · unfold removeVariant
    rw [e]
    by_cases h300 : now' - t > 300
    · rw [if_pos h300]
    · rw [if_neg h300]
  · rw [e] at hget; rcases hget with h | h <;> cases h

/-- the hypotheses are met: an add to the empty directory, cut short after five of its nine steps -/
example : (Sys.empty : Sys Nat Nat Nat).Reachable ∧ (getCached 5 [] (noBucket) 7).1 = .notFound ∧
    addSeven = addSeven.take 5 ++ addSeven.drop 5 ∧ (addSeven.take 5).length = 5 ∧ (addSeven.drop 5).length = 4 :=
  ⟨.refl, by rfl, by rfl, by rfl, by rfl⟩

/-! ## C96: a removed variant is no longer found -/

/-- If one entry holds the variant, a removal that runs to its end makes it not found. -/
theorem C96_remove_partial (b : Bucket H F C) (h : H) (now : Nat) (scan : List Str) 
    (huniq : ∀ i j t u, mget b.metas i = some (.whole h t) → mget b.metas j = some (.whole h u) → i = j)
    (hr : (removeVariant now scan b h).1 = .removed) (now' : Nat) (scan' : List Str) :
    (getCached now' scan' (applyAll b (removeVariant now scan b h).2.2) h).1 = .notFound ∧
    ∃ inc, (removeVariant now scan b h).2.1 = some inc ∧
      mget (applyAll b (removeVariant now scan b h).2.2).payloads inc = none := by
  unfold removeVariant at hr ⊢
  rcases getCached_cases now scan b h with ⟨_, e⟩ | ⟨i, t, _, _, _, e⟩ | ⟨i, _, hh, hf, e⟩
  · rw [e] at hr; cases hr
  · rw [e] at hr
    by_cases h300 : now - t > 300
    · rw [if_pos h300] at hr; cases hr
    · rw [if_neg h300] at hr; cases hr
  · rw [e]
    simp only [applyAll, List.cons_append, List.nil_append, List.foldl_cons, List.foldl_nil, Payload.Step.apply]
    refine ⟨?_, i, rfl, by simp [mget_mdel]⟩
    obtain ⟨t, ht⟩ := holds_iff.mp hh
    have hnone : ∀ j, holds (⟨b.flags, mdel (mset (mset b.metas i .torn) i (.whole h now)) i, mdel b.payloads i⟩ : Bucket H F C) h j = false := by
      intro j
      rcases hb : holds (⟨b.flags, mdel (mset (mset b.metas i .torn) i (.whole h now)) i, mdel b.payloads i⟩ : Bucket H F C) h j with _ | _
      · rfl
      · obtain ⟨u, hu⟩ := holds_iff.mp hb
        simp only [mget_mdel, mget_mset] at hu
        by_cases he : j = i
        · rw [if_pos he] at hu; cases hu
        · rw [if_neg he, if_neg he, if_neg he] at hu
          exact (he (huniq _ _ _ _ hu ht)).elim
    rcases getCached_cases now' scan' (⟨b.flags, mdel (mset (mset b.metas i .torn) i (.whole h now)) i, mdel b.payloads i⟩ : Bucket H F C) h with ⟨_, e'⟩ | ⟨j, u, _, hj, _, e'⟩ | ⟨j, _, hj, _, e'⟩
    · rw [e']
    · rw [hnone j] at hj; cases hj
    · rw [hnone j] at hj; cases hj

example : (removeVariant 6 [c!"a"] sevenBucket 7).1 = .removed := by decide +kernel

/-- the hypotheses are met: one entry of the reached directory holds the variant -/
example : ∀ i j t u, mget sevenBucket.metas i = some (.whole 7 t) → mget sevenBucket.metas j = some (.whole 7 u) → i = j := by
  have he : sevenBucket.metas = [(c!"a", .whole 7 5)] := by rfl
  intro i j t u hi hj
  rw [he] at hi hj
  have key : ∀ k v, mget [(c!"a", (.whole 7 5 : Meta Nat))] k = some v → k = c!"a" := fun k v hk => by
    have := mget_some_mem hk
    rw [List.mem_singleton] at this
    exact congrArg Prod.fst this
  rw [key _ _ hi, key _ _ hj]

/-- the directory while a reader has cut the metadata of `"a"` short and not yet written it again -/
def tornBucket : Bucket Nat Nat Nat := (Payload.Step.tearMeta c!"a").apply sevenBucket

/-- the same directory after the variant was added a second time and the reader wrote what it had left to write -/
def doubleBucket : Bucket Nat Nat Nat :=
  (Payload.Step.writeMeta c!"a" 7 6).apply (applyAll tornBucket (addVariant 7 [c!"a"] true tornBucket 7 twoFiles).2.2)

/-- it is reached, with nothing left to run -/
theorem double_reachable : (⟨doubleBucket, [], [], [(7, twoFiles), (7, twoFiles)]⟩ : Sys Nat Nat Nat).Reachable := by
  refine seven_reachable.trans ?_
  refine .head (Sys.Step.read _ 7 6 [c!"a"] (by unfold ScanOk; decide +kernel)) ?_
  have hr : (getCached 6 [c!"a"] sevenBucket 7).2.2 = [.tearMeta c!"a", .writeMeta c!"a" 7 6] := by rfl
  rw [hr]
  refine .head (Sys.Step.readStep sevenBucket [] [] (.tearMeta c!"a") [.writeMeta c!"a" 7 6] [] [(7, twoFiles)]) ?_
  refine .head (Sys.Step.add _ 7 twoFiles 7 [c!"a"] true (by unfold ScanOk; decide +kernel) (by decide) rfl) ?_
  have := run_adder (H := Nat) tornBucket [[.writeMeta c!"a" 7 6]] (addVariant 7 [c!"a"] true tornBucket 7 twoFiles).2.2 []
    [(7, twoFiles), (7, twoFiles)]
  rw [List.append_nil] at this
  refine .trans this ?_
  refine .head (Sys.Step.readStep _ [] [] (.writeMeta c!"a" 7 6) [] [] [(7, twoFiles), (7, twoFiles)]) ?_
  exact .single (Sys.Step.readDies _ [] [] [] [] [(7, twoFiles), (7, twoFiles)])

/-- Two entries can hold one variant: it is added while a reader is writing its metadata anew.  A removal that runs alone
and to its end is then reported, and the variant is still found, with its payload. -/
theorem C96_twice_false : ∃ (s : Sys Nat Nat Nat) (scan scan' : List Str), s.Reachable ∧ s.readers = [] ∧ s.adder = [] ∧
    ScanOk scan s.bucket ∧ (removeVariant 8 scan s.bucket 7).1 = .removed ∧
    ScanOk scan' (applyAll s.bucket (removeVariant 8 scan s.bucket 7).2.2) ∧
    (getCached 9 scan' (applyAll s.bucket (removeVariant 8 scan s.bucket 7).2.2) 7).1 = .found :=
  ⟨_, [c!"a", c!"b"], [c!"b"], double_reachable, rfl, rfl, by unfold ScanOk; decide +kernel, by decide +kernel,
    by unfold ScanOk; decide +kernel, by decide +kernel⟩

/-- A reader that dies while it notes the access leaves metadata that cannot be read: the variant is lost although its
payload is complete. -/
theorem C97_reader_crash_false : ∃ (s : Sys Nat Nat Nat) (done : List (Payload.Step Nat Nat Nat)), s.Reachable ∧
    (getCached 6 [c!"a"] s.bucket 7).1 = .found ∧ done <+: (getCached 6 [c!"a"] s.bucket 7).2.2 ∧
    (getCached 7 [c!"a"] (applyAll s.bucket done) 7).1 = .notFound ∧
    ∃ p, mget (applyAll s.bucket done).payloads c!"a" = some p ∧ p.length = 2 :=
  ⟨_, [.tearMeta c!"a"], seven_reachable, by decide +kernel, ⟨[.writeMeta c!"a" 7 6], by rfl⟩, by decide +kernel, _, rfl, by decide +kernel⟩

/-- A lookup that runs to its end changes no answer but access times: every handle gets the same status and place. -/
theorem C97_read_partial (b : Bucket H F C) (h k : H) (now : Nat) (scan scan' : List Str) (now' : Nat) :
    (getCached now' scan' (applyAll b (getCached now scan b h).2.2) k).1 = (getCached now' scan' b k).1 ∧
    (getCached now' scan' (applyAll b (getCached now scan b h).2.2) k).2.1 = (getCached now' scan' b k).2.1 ∧
    (applyAll b (getCached now scan b h).2.2).payloads = b.payloads := by
  rcases getCached_cases now scan b h with ⟨_, e⟩ | ⟨i, t, _, _, _, e⟩ | ⟨i, _, hh, hf, e⟩
  · rw [e]; exact ⟨rfl, rfl, rfl⟩
  · rw [e]; exact ⟨rfl, rfl, rfl⟩
  · rw [e]
    have : getCached now' scan' (applyAll b [.tearMeta i, .writeMeta i h now]) k = getCached now' scan' b k := by
      apply getCached_congr
      · intro j _
        obtain ⟨t, ht⟩ := holds_iff.mp hh
        unfold holds
        simp only [applyAll, List.foldl_cons, List.foldl_nil, Payload.Step.apply, mget_mset]
        by_cases he : j = i
        · subst he; rw [if_pos rfl, ht]
        · rw [if_neg he, if_neg he]
      · intro j _ _; rfl
    rw [this]
    exact ⟨rfl, rfl, rfl⟩

end Rez.Props
