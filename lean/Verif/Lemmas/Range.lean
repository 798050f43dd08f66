import Verif.Lemmas.RangeParse
/-! Lemmas about range operations. -/
namespace Rez
open Spec
open VersionRange hiding none any

theorem containsAny_iff (l : List VersionRange) (v : Version) :
    containsAny l v = true ↔ ∃ r ∈ l, r.contains v = true := by
  induction l with
  | nil => simp [containsAny]
  | cons r rs ih => simp [containsAny, ih]

theorem containsAny_append (l m : List VersionRange) (v : Version) :
    containsAny (l ++ m) v = (containsAny l v || containsAny m v) := by
  induction l with
  | nil => simp [containsAny]
  | cons r rs ih => simp [containsAny, ih, Bool.or_assoc]

/-- what every constructed range satisfies -/
structure RangeWf (r : VersionRange) : Prop where
  parsed : r.isParsed = true
  sets : r.boundSets ≠ []
  anyStr : trim r.rangeStr = [] ∨ trim r.rangeStr = c!"*" → r.boundSets = [[.any]] ∧ r.subtractFrom = []
  emptyStr : trim r.rangeStr = c!"empty" ∨ trim r.rangeStr = c!"!*" → r.boundSets = [[.none]]

theorem contains_wf {r : VersionRange} (h : RangeWf r) (v : Version) :
    r.contains v = true ↔
      (∃ b ∈ r.boundSets, BoundSet.contains b v = true) ∧ containsAny r.subtractFrom v = false := by
  obtain ⟨s, bs, p, subs⟩ := r
  have hp : p = true := h.parsed
  have hb : bs ≠ [] := h.sets
  subst hp
  rw [contains_mk]
  simp [hb, boundSets, subtractFrom]

theorem mapM_some_ne_nil {α β} {f : α → Option β} {l : List α} {m : List β} (h : l.mapM f = some m)
    (hl : l ≠ []) : m ≠ [] := by
  cases l with
  | nil => exact absurd rfl hl
  | cons x xs =>
    rw [List.mapM_cons] at h
    cases hx : f x with
    | none => simp [hx] at h
    | some y =>
      cases hxs : xs.mapM f with
      | none => simp [hx, hxs] at h
      | some ys => simp [hx, hxs] at h; rw [← h]; simp

theorem parseAlternatives_ne_nil {s : Str} {bs : List BoundSet} (h : parseAlternatives s = some bs) : bs ≠ [] :=
  mapM_some_ne_nil h (splitChar_ne_nil _ _)

theorem wf_parse {s : Str} {r : VersionRange} (h : VersionRange.parse s = some r) :
    RangeWf r ∧ r.subtractFrom = [] ∧ r.rangeStr = s := by
  unfold VersionRange.parse at h
  cases hp : parseRangeStr (trim s) with
  | none => rw [hp] at h; cases h
  | some bs =>
    rw [hp] at h
    simp only [Option.map_some, Option.some.injEq] at h
    subst h
    refine ⟨⟨rfl, ?_, ?_, ?_⟩, rfl, rfl⟩
    · show bs ≠ []
      unfold parseRangeStr at hp
      split at hp
      · simp at hp; rw [← hp]; simp
      · split at hp
        · simp at hp; rw [← hp]; simp
        · split at hp
          · split at hp <;> exact parseAlternatives_ne_nil hp
          · exact parseAlternatives_ne_nil hp
    · intro ht
      change trim s = [] ∨ trim s = c!"*" at ht
      rcases ht with ht | ht <;>
      · rw [ht] at hp
        simp [parseRangeStr] at hp
        exact ⟨hp.symm, rfl⟩
    · intro ht
      change trim s = c!"empty" ∨ trim s = c!"!*" at ht
      rcases ht with ht | ht <;>
      · rw [ht] at hp
        simp [parseRangeStr] at hp
        exact hp.symm

theorem wf_str_of {s : Str} {c : Char} (hc : c ∈ s) (hw : isWs c = false)
    (h1 : c ∉ c!"*empty!") : ¬ (trim s = [] ∨ trim s = c!"*") ∧ ¬ (trim s = c!"empty" ∨ trim s = c!"!*") := by
  have := mem_trim_of_mem hc hw
  constructor <;> rintro (h | h) <;> rw [h] at this <;> simp at this h1
  · exact h1.1 this
  · rcases this with h | h | h | h | h <;> simp [h] at h1
  · rcases this with h | h <;> simp [h] at h1

theorem wf_intersect {a b r : VersionRange} (ha : RangeWf a) (hb : RangeWf b) (h : a.intersect b = some r) :
    RangeWf r := by
  unfold VersionRange.intersect at h
  split at h
  · simp at h; rw [← h]; exact hb
  split at h
  · simp at h; rw [← h]; exact ha
  simp only at h
  split at h
  · cases h
  · rename_i hne
    simp only [Option.some.injEq] at h
    subst h
    have := wf_str_of (s := c!"(" ++ a.rangeStr ++ c!")&(" ++ b.rangeStr ++ c!")") (c := '(') (by simp) (by decide)
      (by decide)
    exact ⟨rfl, fun he => hne (by rw [List.isEmpty_iff]; exact he), fun ht => absurd ht this.1, fun ht => absurd ht this.2⟩

theorem wf_union {a b : VersionRange} (ha : RangeWf a) : RangeWf (a.union b) := by
  have := wf_str_of (s := a.rangeStr ++ c!"|" ++ b.rangeStr) (c := '|') (by simp) (by decide) (by decide)
  refine ⟨rfl, ?_, fun ht => absurd ht this.1, fun ht => absurd ht this.2⟩
  simp [VersionRange.union, boundSets]
  intro h; exact absurd h ha.sets

theorem wf_subtract {a b r : VersionRange} (ha : RangeWf a) (h : a.subtract b = some r) : RangeWf r := by
  unfold VersionRange.subtract at h
  split at h
  · cases h
  split at h
  · simp at h; rw [← h]; exact ha
  split at h
  · cases h
  · simp only at h
    split at h
    · simp only [Option.some.injEq] at h
      subst h
      have := wf_str_of (s := c!"(" ++ a.rangeStr ++ c!")-(" ++ b.rangeStr ++ c!")") (c := '(') (by simp) (by decide)
        (by decide)
      exact ⟨rfl, ha.sets, fun ht => absurd ht this.1, fun ht => absurd ht this.2⟩
    · cases h

theorem Spec.Built.wf {r : VersionRange} (h : Built r) : RangeWf r := by
  induction h with
  | any => exact ⟨rfl, by decide, fun _ => ⟨rfl, rfl⟩, fun h => by revert h; decide⟩
  | none => exact ⟨rfl, by decide, fun h => by revert h; decide, fun _ => rfl⟩
  | parse h => exact (wf_parse h).1
  | intersect _ _ h iha ihb => exact wf_intersect iha ihb h
  | union _ _ iha _ => exact wf_union iha
  | subtract _ _ h iha _ => exact wf_subtract iha h

theorem Spec.BuiltPlain.built {r : VersionRange} (h : BuiltPlain r) : Built r := by
  induction h with
  | any => exact .any
  | none => exact .none
  | parse h => exact .parse h
  | intersect _ _ h iha ihb => exact .intersect iha ihb h
  | union _ _ iha ihb => exact .union iha ihb

theorem Spec.BuiltPlain.noSub {r : VersionRange} (h : BuiltPlain r) : r.subtractFrom = [] := by
  induction h with
  | any => rfl
  | none => rfl
  | parse h => exact (wf_parse h).2.1
  | union _ _ => rfl
  | intersect _ _ h iha ihb =>
    unfold VersionRange.intersect at h
    split at h
    · simp at h; rw [← h]; exact ihb
    split at h
    · simp at h; rw [← h]; exact iha
    simp only at h
    split at h
    · cases h
    · simp only [Option.some.injEq] at h
      subst h
      show _ ++ _ = []
      rw [iha, ihb]; rfl

theorem isAny_true {r : VersionRange} (h : RangeWf r) (hs : r.subtractFrom = []) (ha : r.isAny = true)
    (v : Version) : r.contains v = true := by
  rw [contains_wf h, hs]
  refine ⟨?_, rfl⟩
  unfold isAny at ha
  simp only at ha
  split at ha
  · rename_i hc
    have : trim r.rangeStr = [] ∨ trim r.rangeStr = c!"*" := by simpa using hc
    rw [(h.anyStr this).1]
    exact ⟨[.any], by simp, rfl⟩
  · cases hb : r.boundSets with
    | nil => exact absurd hb h.sets
    | cons b bs =>
      refine ⟨b, by simp, ?_⟩
      rw [hb, List.all_cons, Bool.and_eq_true] at ha
      have := ha.1
      unfold BoundSet.contains
      rw [Bool.or_eq_true] at this
      rcases this with hb' | hb'
      · cases b <;> simp_all
      · rw [List.all_eq_true] at hb' ⊢
        intro x hx
        have := hb' x hx
        simp at this
        rw [this]; rfl

theorem isEmpty_none {r : VersionRange} (h : RangeWf r) (he : r.isEmpty = true) (v : Version) :
    r.contains v = false := by
  rw [← Bool.not_eq_true, contains_wf h]
  rintro ⟨⟨b, hb, hc⟩, _⟩
  have hnone : Bound.none ∈ b := by
    unfold VersionRange.isEmpty at he
    simp only at he
    split at he
    · rename_i hc
      have : trim r.rangeStr = c!"empty" ∨ trim r.rangeStr = c!"!*" := by simpa using hc
      rw [h.emptyStr this] at hb
      simp at hb; subst hb; simp
    · split at he
      · rw [List.all_eq_true] at he
        have := he b hb
        rw [List.any_eq_true] at this
        obtain ⟨x, hx, hxe⟩ := this
        simp at hxe; rwa [← hxe]
      · cases he
  unfold BoundSet.contains at hc
  rw [List.all_eq_true] at hc
  exact absurd (hc _ hnone) (by simp [boundMatches])

/-! ### satisfiability -/

/-- `u` respects a lower limit -/
def overLower (lo : Limit) (u : Version) : Prop :=
  match lo with
  | none => True
  | some (lv, true) => u.cmp lv ≠ .lt
  | some (lv, false) => u.cmp lv = .gt

/-- `u` respects an upper limit -/
def underUpper (up : Limit) (u : Version) : Prop :=
  match up with
  | none => True
  | some (uv, true) => u.cmp uv ≠ .gt
  | some (uv, false) => u.cmp uv = .lt

/-- the limit's version belongs to `S` -/
def limitIn (S : Version → Prop) (l : Limit) : Prop := ∀ p, l = some p → S p.1

theorem cmp_flip {a b : Version} {o : Ordering} (h : a.cmp b = o) : b.cmp a = o.swap := by
  rw [Props.C01_compare_swap a b, h]

section
variable {S : Version → Prop}

theorem stepGe_over {lo : Limit} {u v : Version} (hlo : overLower lo u) (h : u.cmp v ≠ .lt) :
    overLower (stepGe lo v) u := by
  unfold stepGe
  split
  · exact h
  · split
    · exact h
    · exact hlo

theorem stepGt_over {lo : Limit} {u v : Version} (hlo : overLower lo u) (h : u.cmp v = .gt) :
    overLower (stepGt lo v) u := by
  unfold stepGt
  split
  · exact h
  · split
    · exact h
    · exact hlo

theorem stepLe_under {up : Limit} {u v : Version} (hup : underUpper up u) (h : u.cmp v ≠ .gt) :
    underUpper (stepLe up v) u := by
  unfold stepLe
  split
  · exact h
  · split
    · exact h
    · exact hup

theorem stepLt_under {up : Limit} {u v : Version} (hup : underUpper up u) (h : u.cmp v = .lt) :
    underUpper (stepLt up v) u := by
  unfold stepLt
  split
  · exact h
  · split
    · exact h
    · exact hup

theorem stepGe_in {lo : Limit} {v : Version} (hlo : limitIn S lo) (h : S v) : limitIn S (stepGe lo v) := by
  unfold stepGe
  split
  · intro p hp; simp at hp; rw [← hp]; exact h
  · split
    · intro p hp; simp at hp; rw [← hp]; exact h
    · exact hlo
theorem stepGt_in {lo : Limit} {v : Version} (hlo : limitIn S lo) (h : S v) : limitIn S (stepGt lo v) := by
  unfold stepGt
  split
  · intro p hp; simp at hp; rw [← hp]; exact h
  · split
    · intro p hp; simp at hp; rw [← hp]; exact h
    · exact hlo
theorem stepLe_in {lo : Limit} {v : Version} (hlo : limitIn S lo) (h : S v) : limitIn S (stepLe lo v) := by
  unfold stepLe
  split
  · intro p hp; simp at hp; rw [← hp]; exact h
  · split
    · intro p hp; simp at hp; rw [← hp]; exact h
    · exact hlo
theorem stepLt_in {lo : Limit} {v : Version} (hlo : limitIn S lo) (h : S v) : limitIn S (stepLt lo v) := by
  unfold stepLt
  split
  · intro p hp; simp at hp; rw [← hp]; exact h
  · split
    · intro p hp; simp at hp; rw [← hp]; exact h
    · exact hlo

theorem overLower_le {lo : Limit} {u lv : Version} {i : Bool} (h : overLower lo u) (hl : lo = some (lv, i)) :
    u.cmp lv ≠ .lt := by
  subst hl
  cases i
  · have : u.cmp lv = .gt := h
    simp [this]
  · exact h

theorem underUpper_ge {lo : Limit} {u lv : Version} {i : Bool} (h : underUpper lo u) (hl : lo = some (lv, i)) :
    u.cmp lv ≠ .gt := by
  subst hl
  cases i
  · have : u.cmp lv = .lt := h
    simp [this]
  · exact h

theorem flip_ne_lt {a b : Version} (h : a.cmp b ≠ .lt) : b.cmp a ≠ .gt := by
  rw [Props.C01_compare_swap a b]; cases h' : a.cmp b <;> simp_all
theorem flip_ne_gt {a b : Version} (h : a.cmp b ≠ .gt) : b.cmp a ≠ .lt := by
  rw [Props.C01_compare_swap a b]; cases h' : a.cmp b <;> simp_all

/-- the final limit check never rejects limits that some version of a transitive family respects -/
theorem limitsOk_of {lo up : Limit} {u : Version} (hS : TransOn S) (hu : S u) (hlo : limitIn S lo)
    (hup : limitIn S up) (h1 : overLower lo u) (h2 : underUpper up u) : limitsOk lo up = true := by
  unfold limitsOk
  cases lo with
  | none => rfl
  | some l =>
    obtain ⟨lv, linc⟩ := l
    cases up with
    | none => rfl
    | some p =>
      obtain ⟨uv, uinc⟩ := p
      have hlv : S lv := hlo _ rfl
      have huv : S uv := hup _ rfl
      have a1 := flip_ne_lt (overLower_le h1 rfl)
      have a2 := underUpper_ge h2 rfl
      have a3 := hS lv u uv hlv hu huv a1 a2
      simp only
      cases hc : lv.cmp uv with
      | gt => exact absurd hc a3
      | lt => rfl
      | eq =>
        have hc' : uv.cmp lv ≠ .gt := by rw [cmp_flip hc]; decide
        cases linc with
        | false =>
          have h1' : u.cmp lv = .gt := h1
          exact absurd h1' (hS u uv lv hu huv hlv a2 hc')
        | true =>
          cases uinc with
          | true => rfl
          | false =>
            have h2' : u.cmp uv = .lt := h2
            have := hS uv lv u huv hlv hu hc' a1
            rw [cmp_flip h2'] at this
            exact absurd rfl this

/-- every version written in a bound belongs to `S` -/
def boundIn (S : Version → Prop) (b : Bound) : Prop :=
  ∀ u, (b = .ge u ∨ b = .gt u ∨ b = .le u ∨ b = .lt u ∨ b = .eq u ∨ b = .ne u ∨ b = .compatible u) → S u

theorem limitLoop_of {bs : List Bound} {u : Version} (hb : ∀ b ∈ bs, boundIn S b)
    (hm : ∀ b ∈ bs, boundMatches b u = true) (lo up : Limit) (hlo : limitIn S lo) (hup : limitIn S up)
    (h1 : overLower lo u) (h2 : underUpper up u) :
    limitIn S (limitLoop bs lo up).1 ∧ limitIn S (limitLoop bs lo up).2 ∧
    overLower (limitLoop bs lo up).1 u ∧ underUpper (limitLoop bs lo up).2 u := by
  induction bs generalizing lo up with
  | nil => exact ⟨hlo, hup, h1, h2⟩
  | cons b bs ih =>
    have ihb := ih (fun b hb' => hb b (List.mem_cons_of_mem _ hb')) (fun b hb' => hm b (List.mem_cons_of_mem _ hb'))
    have mb := hm b (by simp)
    have ib := hb b (by simp)
    cases b <;> simp only [limitLoop]
    case ge v =>
      exact ihb _ _ (stepGe_in hlo (ib v (by simp))) hup (stepGe_over h1 (by simpa [boundMatches, Version.ge] using mb)) h2
    case gt v =>
      exact ihb _ _ (stepGt_in hlo (ib v (by simp))) hup (stepGt_over h1 (by simpa [boundMatches, Version.gt] using mb)) h2
    case le v =>
      exact ihb _ _ hlo (stepLe_in hup (ib v (by simp))) h1 (stepLe_under h2 (by simpa [boundMatches, Version.le] using mb))
    case lt v =>
      exact ihb _ _ hlo (stepLt_in hup (ib v (by simp))) h1 (stepLt_under h2 (by simpa [boundMatches, Version.lt] using mb))
    all_goals exact ihb _ _ hlo hup h1 h2

theorem satLoop_of {bs : List Bound} {u : Version} (hS : TransOn S) (hu : S u) (hb : ∀ b ∈ bs, boundIn S b)
    (hm : ∀ b ∈ bs, boundMatches b u = true) (lo up : Limit) (hlo : limitIn S lo) (hup : limitIn S up)
    (h1 : overLower lo u) (h2 : underUpper up u) :
    ∃ lo' up', satLoop bs lo up = some (lo', up') ∧ limitIn S lo' ∧ limitIn S up' ∧
      overLower lo' u ∧ underUpper up' u := by
  induction bs generalizing lo up with
  | nil => exact ⟨lo, up, rfl, hlo, hup, h1, h2⟩
  | cons b bs ih =>
    have ihb := ih (fun b hb' => hb b (List.mem_cons_of_mem _ hb')) (fun b hb' => hm b (List.mem_cons_of_mem _ hb'))
    have mb := hm b (by simp)
    have ib := hb b (by simp)
    cases b <;> simp only [satLoop]
    case ge v =>
      exact ihb _ _ (stepGe_in hlo (ib v (by simp))) hup (stepGe_over h1 (by simpa [boundMatches, Version.ge] using mb)) h2
    case gt v =>
      exact ihb _ _ (stepGt_in hlo (ib v (by simp))) hup (stepGt_over h1 (by simpa [boundMatches, Version.gt] using mb)) h2
    case le v =>
      exact ihb _ _ hlo (stepLe_in hup (ib v (by simp))) h1 (stepLe_under h2 (by simpa [boundMatches, Version.le] using mb))
    case lt v =>
      exact ihb _ _ hlo (stepLt_in hup (ib v (by simp))) h1 (stepLt_under h2 (by simpa [boundMatches, Version.lt] using mb))
    case none => simp [boundMatches] at mb
    case eq v =>
      have me : u.cmp v = .eq := by simpa [boundMatches, Version.eqv] using mb
      have me' : v.cmp u ≠ .gt := by rw [cmp_flip me]; decide
      have me'' : u.cmp v ≠ .gt := by rw [me]; decide
      have sv : S v := ib v (by simp)
      have c1 : eqBelow lo v = false := by
        unfold eqBelow
        cases lo with
        | none => rfl
        | some l =>
          obtain ⟨lv, linc⟩ := l
          have := flip_ne_gt (hS lv u v (hlo _ rfl) hu sv (flip_ne_lt (overLower_le h1 rfl)) me'')
          simp [Version.lt, this]
      have c2 : eqAbove up v = false := by
        unfold eqAbove
        cases up with
        | none => rfl
        | some l =>
          obtain ⟨uv, uinc⟩ := l
          have := hS v u uv sv hu (hup _ rfl) me' (underUpper_ge h2 rfl)
          simp [Version.gt, this]
      simp only [c1, c2, Bool.false_eq_true, if_false]
      exact ihb _ _ (stepGe_in hlo sv) (stepLe_in hup sv) (stepGe_over h1 (by simp [me])) (stepLe_under h2 (by simp [me]))
    all_goals exact ihb _ _ hlo hup h1 h2

theorem isSatisfiable_of {bs : BoundSet} {u : Version} (hS : TransOn S) (hu : S u) (hb : ∀ b ∈ bs, boundIn S b)
    (hm : BoundSet.contains bs u = true) : isSatisfiable bs = true := by
  have hm' : ∀ b ∈ bs, boundMatches b u = true := List.all_eq_true.mp hm
  unfold isSatisfiable
  have hn : bs.any (fun b => decide (b = .none)) = false := by
    rw [← Bool.not_eq_true, List.any_eq_true]
    rintro ⟨b, hb', he⟩
    simp at he; subst he
    exact absurd (hm' _ hb') (by simp [boundMatches])
  obtain ⟨lo, up, he, h1, h2, h3, h4⟩ := satLoop_of hS hu hb hm' none none (by intro p hp; cases hp)
    (by intro p hp; cases hp) trivial trivial
  simp only [hn, Bool.false_eq_true, if_false, he]
  exact limitsOk_of hS hu h1 h2 h3 h4

theorem boundSetsIntersect_of {a b : BoundSet} {u : Version} (hS : TransOn S) (hu : S u)
    (ha : ∀ x ∈ a, boundIn S x) (hb : ∀ x ∈ b, boundIn S x)
    (ma : BoundSet.contains a u = true) (mb : BoundSet.contains b u = true) : boundSetsIntersect a b = true := by
  have hc : ∀ x ∈ a ++ b, boundIn S x := by
    intro x hx; rcases List.mem_append.mp hx with h | h
    · exact ha x h
    · exact hb x h
  have mc : ∀ x ∈ a ++ b, boundMatches x u = true := by
    intro x hx; rcases List.mem_append.mp hx with h | h
    · exact List.all_eq_true.mp ma x h
    · exact List.all_eq_true.mp mb x h
  have he : ∀ v ∈ eqVersions (a ++ b), u.cmp v = .eq ∧ S v := by
    intro v hv
    unfold eqVersions at hv
    rw [List.mem_filterMap] at hv
    obtain ⟨x, hx, hxe⟩ := hv
    cases x <;> simp at hxe
    subst hxe
    exact ⟨by simpa [boundMatches, Version.eqv] using mc _ hx, hc _ hx _ (by simp)⟩
  have e1 : eqDisagree (eqVersions (a ++ b)) = false := by
    unfold eqDisagree
    split
    · rename_i first second rest heq
      rw [← Bool.not_eq_true, List.any_eq_true]
      rintro ⟨v, hv, hne⟩
      have hf := he first (by rw [heq]; simp)
      have hv' := he v hv
      have h1 := hS v u first hv'.2 hu hf.2 (by rw [cmp_flip hv'.1]; decide) (by rw [hf.1]; decide)
      have h2 := hS first u v hf.2 hu hv'.2 (by rw [cmp_flip hf.1]; decide) (by rw [hv'.1]; decide)
      have h3 := flip_ne_gt h2
      simp [Version.eqv] at hne
      cases hvf : v.cmp first <;> simp_all
    · rfl
  have e2 : (eqVersions (a ++ b)).any (fun v => (a ++ b).any (eqClash v)) = false := by
    rw [← Bool.not_eq_true, List.any_eq_true]
    rintro ⟨v, hv, hcl⟩
    rw [List.any_eq_true] at hcl
    obtain ⟨x, hx, hxc⟩ := hcl
    have hv' := he v hv
    have g1 : v.cmp u ≠ .gt := by rw [cmp_flip hv'.1]; decide
    have g2 : u.cmp v ≠ .gt := by rw [hv'.1]; decide
    have mx := mc x hx
    have sx := hc x hx
    cases x <;> simp [eqClash] at hxc <;> rename_i w <;> have sw := sx w (by simp)
    · -- ge: u ≥ w, v < w
      have mx' : u.cmp w ≠ .lt := by simpa [boundMatches, Version.ge] using mx
      exact flip_ne_gt (hS w u v sw hu hv'.2 (flip_ne_lt mx') g2) (by simpa [Version.lt] using hxc)
    · -- gt: u > w, v ≤ w
      have mx' : u.cmp w = .gt := by simpa [boundMatches, Version.gt] using mx
      exact hS u v w hu hv'.2 sw g2 (by simpa [Version.le] using hxc) mx'
    · have mx' : u.cmp w ≠ .gt := by simpa [boundMatches, Version.le] using mx
      exact hS v u w hv'.2 hu sw g1 mx' (by simpa [Version.gt] using hxc)
    · have mx' : u.cmp w = .lt := by simpa [boundMatches, Version.lt] using mx
      have hxc' : v.cmp w ≠ .lt := by simpa [Version.ge] using hxc
      exact flip_ne_gt (hS w v u sw hv'.2 hu (flip_ne_lt hxc') g1) mx'
  unfold boundSetsIntersect
  simp only [e1, e2, Bool.false_eq_true, if_false]
  split
  · rfl
  · have := limitLoop_of hc mc none none (by intro p hp; cases hp) (by intro p hp; cases hp) trivial trivial
    exact limitsOk_of hS hu this.1 this.2.1 this.2.2.1 this.2.2.2

end

theorem mergedSets_mem {a b : List BoundSet} {m : BoundSet} :
    m ∈ mergedSets a b ↔ ∃ x ∈ a, ∃ y ∈ b, m = x ++ y ∧ isSatisfiable m = true := by
  unfold mergedSets
  simp only [List.mem_flatMap, List.mem_filter, List.mem_map]
  constructor
  · rintro ⟨x, hx, ⟨y, hy, rfl⟩, hs⟩; exact ⟨x, hx, y, hy, rfl, hs⟩
  · rintro ⟨x, hx, y, hy, rfl, hs⟩; exact ⟨x, hx, ⟨y, hy, rfl⟩, hs⟩

theorem contains_append (x y : BoundSet) (v : Version) :
    BoundSet.contains (x ++ y) v = (BoundSet.contains x v && BoundSet.contains y v) := by
  simp [BoundSet.contains, List.all_append]

theorem probes_mentions {a b : VersionRange} {u : Version} (h : Mentions a u ∨ Mentions b u) : u ∈ probes a b := by
  unfold probes
  rw [List.mem_append]
  left
  rw [List.mem_flatMap]
  rcases h with ⟨bs, hbs, x, hx, h⟩ | ⟨bs, hbs, x, hx, h⟩
  all_goals
    refine ⟨bs, by simp [hbs], ?_⟩
    rw [List.mem_flatMap]
    refine ⟨u, ?_, by simp⟩
    rw [List.mem_filterMap]
    refine ⟨x, hx, ?_⟩
    rcases h with rfl | rfl | rfl | rfl | rfl | rfl | rfl <;> rfl

end Rez
