import Verif.Lemmas.Range
/-! The accumulated limits are at least as tight as every bound, up to inclusiveness. -/
namespace Rez
open Spec
open VersionRange hiding none any

section
variable {S : Version → Prop}

/-- the lower limit is not below `w` -/
def lowTight (lo : Limit) (w : Version) : Prop := ∃ lv inc, lo = some (lv, inc) ∧ lv.cmp w ≠ .lt
/-- the upper limit is not above `w` -/
def upTight (up : Limit) (w : Version) : Prop := ∃ uv inc, up = some (uv, inc) ∧ uv.cmp w ≠ .gt

theorem transOn_ge (hS : TransOn S) {a b c : Version} (ha : S a) (hb : S b) (hc : S c) (h1 : a.cmp b ≠ .lt)
    (h2 : b.cmp c ≠ .lt) : a.cmp c ≠ .lt :=
  flip_ne_gt (hS c b a hc hb ha (flip_ne_lt h2) (flip_ne_lt h1))

theorem refl_ne_lt (v : Version) : v.cmp v ≠ .lt := by rw [Props.C01_compare_refl]; decide
theorem refl_ne_gt (v : Version) : v.cmp v ≠ .gt := by rw [Props.C01_compare_refl]; decide

theorem stepGe_new (lo : Limit) (v : Version) : lowTight (stepGe lo v) v := by
  unfold stepGe
  split
  · exact ⟨v, true, rfl, refl_ne_lt v⟩
  · rename_i lv linc
    split
    · exact ⟨v, true, rfl, refl_ne_lt v⟩
    · rename_i h
      simp [Version.gt] at h
      exact ⟨lv, linc, rfl, flip_ne_gt h.1⟩
theorem stepGt_new (lo : Limit) (v : Version) : lowTight (stepGt lo v) v := by
  unfold stepGt
  split
  · exact ⟨v, false, rfl, refl_ne_lt v⟩
  · rename_i lv linc
    split
    · exact ⟨v, false, rfl, refl_ne_lt v⟩
    · rename_i h
      simp [Version.ge] at h
      have : lv.cmp v = .gt := cmp_flip h
      exact ⟨lv, linc, rfl, by rw [this]; decide⟩
theorem stepLe_new (up : Limit) (v : Version) : upTight (stepLe up v) v := by
  unfold stepLe
  split
  · exact ⟨v, true, rfl, refl_ne_gt v⟩
  · rename_i lv linc
    split
    · exact ⟨v, true, rfl, refl_ne_gt v⟩
    · rename_i h
      simp [Version.lt] at h
      exact ⟨lv, linc, rfl, flip_ne_lt h.1⟩
theorem stepLt_new (up : Limit) (v : Version) : upTight (stepLt up v) v := by
  unfold stepLt
  split
  · exact ⟨v, false, rfl, refl_ne_gt v⟩
  · rename_i lv linc
    split
    · exact ⟨v, false, rfl, refl_ne_gt v⟩
    · rename_i h
      simp [Version.le] at h
      have : lv.cmp v = .lt := cmp_flip h
      exact ⟨lv, linc, rfl, by rw [this]; decide⟩

theorem stepGe_keep (hS : TransOn S) {lo : Limit} {v w : Version} (hl : limitIn S lo) (hv : S v)
    (hw : S w) (h : lowTight lo w) : lowTight (stepGe lo v) w := by
  obtain ⟨lv, inc, rfl, h1⟩ := h
  have hlv : S lv := hl _ rfl
  unfold stepGe
  simp only
  split
  · rename_i hc
    simp [Version.gt, Version.eqv] at hc
    exact ⟨v, true, rfl, transOn_ge hS hv hlv hw (by rcases hc with hc | hc <;> simp [hc]) h1⟩
  · exact ⟨lv, inc, rfl, h1⟩
theorem stepGt_keep (hS : TransOn S) {lo : Limit} {v w : Version} (hl : limitIn S lo) (hv : S v)
    (hw : S w) (h : lowTight lo w) : lowTight (stepGt lo v) w := by
  obtain ⟨lv, inc, rfl, h1⟩ := h
  have hlv : S lv := hl _ rfl
  unfold stepGt
  simp only
  split
  · rename_i hc
    simp [Version.ge] at hc
    exact ⟨v, false, rfl, transOn_ge hS hv hlv hw hc h1⟩
  · exact ⟨lv, inc, rfl, h1⟩
theorem stepLe_keep (hS : TransOn S) {lo : Limit} {v w : Version} (hl : limitIn S lo) (hv : S v)
    (hw : S w) (h : upTight lo w) : upTight (stepLe lo v) w := by
  obtain ⟨lv, inc, rfl, h1⟩ := h
  have hlv : S lv := hl _ rfl
  unfold stepLe
  simp only
  split
  · rename_i hc
    simp [Version.lt, Version.eqv] at hc
    exact ⟨v, true, rfl, hS v lv w hv hlv hw (by rcases hc with hc | hc <;> simp [hc]) h1⟩
  · exact ⟨lv, inc, rfl, h1⟩
theorem stepLt_keep (hS : TransOn S) {lo : Limit} {v w : Version} (hl : limitIn S lo) (hv : S v)
    (hw : S w) (h : upTight lo w) : upTight (stepLt lo v) w := by
  obtain ⟨lv, inc, rfl, h1⟩ := h
  have hlv : S lv := hl _ rfl
  unfold stepLt
  simp only
  split
  · rename_i hc
    simp [Version.le] at hc
    exact ⟨v, false, rfl, hS v lv w hv hlv hw hc h1⟩
  · exact ⟨lv, inc, rfl, h1⟩

theorem limitLoop_tight (hS : TransOn S) {bs : List Bound} (hb : ∀ b ∈ bs, boundIn S b) (lo up : Limit)
    (hlo : limitIn S lo) (hup : limitIn S up) :
    limitIn S (limitLoop bs lo up).1 ∧ limitIn S (limitLoop bs lo up).2 ∧
    (∀ w, S w → (lowTight lo w ∨ Bound.ge w ∈ bs ∨ Bound.gt w ∈ bs) → lowTight (limitLoop bs lo up).1 w) ∧
    (∀ w, S w → (upTight up w ∨ Bound.le w ∈ bs ∨ Bound.lt w ∈ bs) → upTight (limitLoop bs lo up).2 w) := by
  induction bs generalizing lo up with
  | nil => exact ⟨hlo, hup, by simp [limitLoop], by simp [limitLoop]⟩
  | cons b bs ih =>
    have ihb := ih (fun b hb' => hb b (List.mem_cons_of_mem _ hb'))
    have ib := hb b (by simp)
    cases b <;> simp only [limitLoop]
    case ge v =>
      obtain ⟨a, b, c, d⟩ := ihb (stepGe lo v) up (stepGe_in hlo (ib v (by simp))) hup
      refine ⟨a, b, fun w hw h => c w hw ?_, fun w hw h => d w hw (by simpa using h)⟩
      rcases h with h | h | h
      · exact .inl (stepGe_keep hS hlo (ib v (by simp)) hw h)
      · simp at h; rcases h with rfl | h
        · exact .inl (stepGe_new lo w)
        · exact .inr (.inl h)
      · simp at h; exact .inr (.inr h)
    case gt v =>
      obtain ⟨a, b, c, d⟩ := ihb (stepGt lo v) up (stepGt_in hlo (ib v (by simp))) hup
      refine ⟨a, b, fun w hw h => c w hw ?_, fun w hw h => d w hw (by simpa using h)⟩
      rcases h with h | h | h
      · exact .inl (stepGt_keep hS hlo (ib v (by simp)) hw h)
      · simp at h; exact .inr (.inl h)
      · simp at h; rcases h with rfl | h
        · exact .inl (stepGt_new lo w)
        · exact .inr (.inr h)
    case le v =>
      obtain ⟨a, b, c, d⟩ := ihb lo (stepLe up v) hlo (stepLe_in hup (ib v (by simp)))
      refine ⟨a, b, fun w hw h => c w hw (by simpa using h), fun w hw h => d w hw ?_⟩
      rcases h with h | h | h
      · exact .inl (stepLe_keep hS hup (ib v (by simp)) hw h)
      · simp at h; rcases h with rfl | h
        · exact .inl (stepLe_new up w)
        · exact .inr (.inl h)
      · simp at h; exact .inr (.inr h)
    case lt v =>
      obtain ⟨a, b, c, d⟩ := ihb lo (stepLt up v) hlo (stepLt_in hup (ib v (by simp)))
      refine ⟨a, b, fun w hw h => c w hw (by simpa using h), fun w hw h => d w hw ?_⟩
      rcases h with h | h | h
      · exact .inl (stepLt_keep hS hup (ib v (by simp)) hw h)
      · simp at h; exact .inr (.inl h)
      · simp at h; rcases h with rfl | h
        · exact .inl (stepLt_new up w)
        · exact .inr (.inr h)
    all_goals
      obtain ⟨a, b, c, d⟩ := ihb lo up hlo hup
      exact ⟨a, b, fun w hw h => c w hw (by simpa using h), fun w hw h => d w hw (by simpa using h)⟩

theorem satLoop_tight (hS : TransOn S) {bs : List Bound} (hb : ∀ b ∈ bs, boundIn S b) (lo up lo' up' : Limit)
    (hlo : limitIn S lo) (hup : limitIn S up) (he : satLoop bs lo up = some (lo', up')) :
    limitIn S lo' ∧ limitIn S up' ∧
    (∀ w, S w → (lowTight lo w ∨ Bound.ge w ∈ bs ∨ Bound.gt w ∈ bs) → lowTight lo' w) ∧
    (∀ w, S w → (upTight up w ∨ Bound.le w ∈ bs ∨ Bound.lt w ∈ bs) → upTight up' w) := by
  induction bs generalizing lo up with
  | nil => simp [satLoop] at he; obtain ⟨rfl, rfl⟩ := he; exact ⟨hlo, hup, by simp, by simp⟩
  | cons b bs ih =>
    have ihb := ih (fun b hb' => hb b (List.mem_cons_of_mem _ hb'))
    have ib := hb b (by simp)
    cases b <;> simp only [satLoop] at he
    case ge v =>
      obtain ⟨a, b, c, d⟩ := ihb (stepGe lo v) up (stepGe_in hlo (ib v (by simp))) hup he
      refine ⟨a, b, fun w hw h => c w hw ?_, fun w hw h => d w hw (by simpa using h)⟩
      rcases h with h | h | h
      · exact .inl (stepGe_keep hS hlo (ib v (by simp)) hw h)
      · simp at h; rcases h with rfl | h
        · exact .inl (stepGe_new lo w)
        · exact .inr (.inl h)
      · simp at h; exact .inr (.inr h)
    case gt v =>
      obtain ⟨a, b, c, d⟩ := ihb (stepGt lo v) up (stepGt_in hlo (ib v (by simp))) hup he
      refine ⟨a, b, fun w hw h => c w hw ?_, fun w hw h => d w hw (by simpa using h)⟩
      rcases h with h | h | h
      · exact .inl (stepGt_keep hS hlo (ib v (by simp)) hw h)
      · simp at h; exact .inr (.inl h)
      · simp at h; rcases h with rfl | h
        · exact .inl (stepGt_new lo w)
        · exact .inr (.inr h)
    case le v =>
      obtain ⟨a, b, c, d⟩ := ihb lo (stepLe up v) hlo (stepLe_in hup (ib v (by simp))) he
      refine ⟨a, b, fun w hw h => c w hw (by simpa using h), fun w hw h => d w hw ?_⟩
      rcases h with h | h | h
      · exact .inl (stepLe_keep hS hup (ib v (by simp)) hw h)
      · simp at h; rcases h with rfl | h
        · exact .inl (stepLe_new up w)
        · exact .inr (.inl h)
      · simp at h; exact .inr (.inr h)
    case lt v =>
      obtain ⟨a, b, c, d⟩ := ihb lo (stepLt up v) hlo (stepLt_in hup (ib v (by simp))) he
      refine ⟨a, b, fun w hw h => c w hw (by simpa using h), fun w hw h => d w hw ?_⟩
      rcases h with h | h | h
      · exact .inl (stepLt_keep hS hup (ib v (by simp)) hw h)
      · simp at h; exact .inr (.inl h)
      · simp at h; rcases h with rfl | h
        · exact .inl (stepLt_new up w)
        · exact .inr (.inr h)
    case eq v =>
      have sv : S v := ib v (by simp)
      split at he
      · cases he
      split at he
      · cases he
      obtain ⟨a, b, c, d⟩ := ihb _ _ (stepGe_in hlo sv) (stepLe_in hup sv) he
      refine ⟨a, b, fun w hw h => c w hw ?_, fun w hw h => d w hw ?_⟩
      · rcases h with h | h
        · exact .inl (stepGe_keep hS hlo sv hw h)
        · simp at h; exact .inr h
      · rcases h with h | h
        · exact .inl (stepLe_keep hS hup sv hw h)
        · simp at h; exact .inr h
    case none => cases he
    all_goals
      obtain ⟨a, b, c, d⟩ := ihb lo up hlo hup he
      exact ⟨a, b, fun w hw h => c w hw (by simpa using h), fun w hw h => d w hw (by simpa using h)⟩

theorem limits_contradict (hS : TransOn S) {lo up : Limit} {l u : Version} (hl : S l) (hu : S u)
    (hlo : limitIn S lo) (hup : limitIn S up) (h1 : lowTight lo l) (h2 : upTight up u) (h : l.cmp u = .gt) :
    limitsOk lo up = false := by
  obtain ⟨lv, i, rfl, h1⟩ := h1
  obtain ⟨uv, j, rfl, h2⟩ := h2
  have hlv : S lv := hlo _ rfl
  have huv : S uv := hup _ rfl
  have : lv.cmp uv = .gt := by
    refine Classical.byContradiction fun hc => ?_
    exact hS l lv u hl hlv hu (flip_ne_lt h1) (hS lv uv u hlv huv hu hc h2) h
  simp [limitsOk, this]

theorem isSatisfiable_contradictory (hS : TransOn S) {bs : BoundSet} (hb : ∀ b ∈ bs, boundIn S b)
    (hc : Contradictory bs) : isSatisfiable bs = false := by
  obtain ⟨l, u, hl, hu, h⟩ := hc
  have sl : S l := by rcases hl with h | h <;> exact hb _ h l (by simp)
  have su : S u := by rcases hu with h | h <;> exact hb _ h u (by simp)
  unfold isSatisfiable
  split
  · rfl
  · split
    · rfl
    · rename_i lo up he
      obtain ⟨a, b, c, d⟩ := satLoop_tight hS hb none none lo up (by intro p hp; cases hp) (by intro p hp; cases hp) he
      exact limits_contradict hS sl su a b (c l sl (.inr hl)) (d u su (.inr hu)) h

theorem boundSetsIntersect_contradictory (hS : TransOn S) {x y : BoundSet} (hb : ∀ b ∈ x ++ y, boundIn S b)
    (hx : ∃ b ∈ x, b ≠ Bound.any) (hy : ∃ b ∈ y, b ≠ Bound.any)
    (hc : Contradictory (x ++ y)) : boundSetsIntersect x y = false := by
  obtain ⟨l, u, hl, hu, h⟩ := hc
  have sl : S l := by rcases hl with h | h <;> exact hb _ h l (by simp)
  have su : S u := by rcases hu with h | h <;> exact hb _ h u (by simp)
  unfold boundSetsIntersect
  have h0 : (x.all (fun x => decide (x = .any)) || y.all (fun x => decide (x = .any))) = false := by
    obtain ⟨b, hb1, hb2⟩ := hx
    obtain ⟨c, hc1, hc2⟩ := hy
    simp only [Bool.or_eq_false_iff, List.all_eq_false]
    exact ⟨⟨b, hb1, by simpa using hb2⟩, ⟨c, hc1, by simpa using hc2⟩⟩
  simp only [h0, Bool.false_eq_true, if_false]
  split
  · rfl
  split
  · rfl
  · obtain ⟨a, b, c, d⟩ := limitLoop_tight hS hb none none (by intro p hp; cases hp) (by intro p hp; cases hp)
    exact limits_contradict hS sl su a b (c l sl (.inr hl)) (d u su (.inr hu)) h
end
end Rez
