import Verif.Base.Text
/-!
# Maps and sets

A `HashMap` is an association list, a `HashSet` a list.  The position of an entry carries no meaning: where the
iteration order is observable, it is a parameter of the model function or the theorem ranges over every
reordering.
-/
namespace Rez
variable {κ α : Type} [DecidableEq κ]

/-- `HashMap::get`. -/
def mget : List (κ × α) → κ → Option α
  | [], _ => none
  | (k', v) :: m, k => if k' = k then some v else mget m k

/-- `HashMap::remove`. -/
def mdel (m : List (κ × α)) (k : κ) : List (κ × α) := m.filter fun p => p.1 ≠ k

/-- `HashMap::insert`. -/
def mset (m : List (κ × α)) (k : κ) (v : α) : List (κ × α) := (k, v) :: mdel m k

/-- `if let Some(x) = map.get_mut(k) { *x = f(x) }`. -/
def mupd (m : List (κ × α)) (k : κ) (f : α → α) : List (κ × α) :=
  m.map fun p => if p.1 = k then (p.1, f p.2) else p

/-- `HashMap::keys`. -/
def mkeys (m : List (κ × α)) : List κ := m.map Prod.fst

/-- `HashSet::insert`. -/
def sadd (s : List κ) (k : κ) : List κ := if k ∈ s then s else k :: s

/-- `HashSet::remove`. -/
def sdel (s : List κ) (k : κ) : List κ := s.filter fun x => x ≠ k

@[simp] theorem mget_nil (k : κ) : mget ([] : List (κ × α)) k = none := rfl

theorem mget_mdel (m : List (κ × α)) (k j : κ) : mget (mdel m k) j = if j = k then none else mget m j := by
  induction m with
  | nil => simp [mdel, mget]
  | cons p m ih =>
    obtain ⟨a, v⟩ := p
    unfold mdel at ih ⊢
    by_cases h : a = k
    · subst h
      rw [List.filter_cons_of_neg (by simp), ih]
      by_cases hj : j = a
      · simp [hj]
      · simp [hj, mget, Ne.symm hj]
    · rw [List.filter_cons_of_pos (by simp [h])]
      simp only [mget, ih]
      by_cases ha : a = j
      · subst ha; simp [h]
      · simp [ha]

theorem mget_mset (m : List (κ × α)) (k j : κ) (v : α) : mget (mset m k v) j = if j = k then some v else mget m j := by
  simp only [mset, mget, mget_mdel]
  by_cases h : k = j
  · simp [h]
  · simp [h, Ne.symm h]

theorem mget_mupd (m : List (κ × α)) (k j : κ) (f : α → α) :
    mget (mupd m k f) j = if j = k then (mget m j).map f else mget m j := by
  induction m with
  | nil => simp [mupd]
  | cons p m ih =>
    obtain ⟨a, v⟩ := p
    unfold mupd at ih ⊢
    simp only [List.map_cons, mget]
    by_cases ha : a = k
    · subst ha
      simp only [if_true, mget, ih]
      by_cases hj : a = j
      · subst hj; simp
      · simp [hj]
    · simp only [ha, if_false, mget, ih]
      by_cases hj : a = j
      · subst hj; simp [ha]
      · simp [hj]

theorem mget_none_iff (m : List (κ × α)) (k : κ) : mget m k = none ↔ k ∉ mkeys m := by
  induction m with
  | nil => simp [mkeys]
  | cons p m ih =>
    obtain ⟨a, v⟩ := p
    simp only [mget, mkeys, List.map_cons, List.mem_cons, not_or] at ih ⊢
    by_cases h : a = k
    · simp [h]
    · rw [if_neg h, ih]; simp [Ne.symm h]

theorem mget_some_mem {m : List (κ × α)} {k : κ} {v : α} (h : mget m k = some v) : (k, v) ∈ m := by
  induction m with
  | nil => cases h
  | cons p m ih =>
    obtain ⟨a, w⟩ := p
    simp only [mget] at h
    split at h
    · rename_i ha; simp at h; subst ha h; simp
    · exact List.mem_cons_of_mem _ (ih h)

theorem mget_isSome_iff (m : List (κ × α)) (k : κ) : (∃ v, mget m k = some v) ↔ k ∈ mkeys m := by
  rw [← Option.isSome_iff_exists, ← Option.ne_none_iff_isSome, Ne, mget_none_iff, Classical.not_not]

theorem mget_of_mem {m : List (κ × α)} (hn : (mkeys m).Nodup) {k : κ} {v : α} (h : (k, v) ∈ m) : mget m k = some v := by
  induction m with
  | nil => cases h
  | cons p m ih =>
    obtain ⟨a, w⟩ := p
    simp only [mkeys, List.map_cons, List.nodup_cons] at hn
    simp only [mget]
    rcases List.mem_cons.mp h with h | h
    · simp at h; simp [h]
    · have : a ≠ k := by
        rintro rfl
        exact hn.1 (List.mem_map.mpr ⟨_, h, rfl⟩)
      rw [if_neg this]; exact ih hn.2 h

theorem mkeys_mupd (m : List (κ × α)) (k : κ) (f : α → α) : mkeys (mupd m k f) = mkeys m := by
  unfold mkeys mupd
  rw [List.map_map]
  apply List.map_congr_left
  intro p _
  simp only [Function.comp]
  split <;> rfl

theorem mkeys_mdel (m : List (κ × α)) (k : κ) : mkeys (mdel m k) = (mkeys m).filter fun x => x ≠ k := by
  unfold mkeys mdel
  rw [List.filter_map]; rfl

theorem mem_mkeys_mdel {m : List (κ × α)} {k j : κ} : j ∈ mkeys (mdel m k) ↔ j ∈ mkeys m ∧ j ≠ k := by
  rw [mkeys_mdel]; simp

theorem nodup_mdel {m : List (κ × α)} (h : (mkeys m).Nodup) (k : κ) : (mkeys (mdel m k)).Nodup := by
  rw [mkeys_mdel]; exact h.filter _

theorem nodup_mset {m : List (κ × α)} (h : (mkeys m).Nodup) (k : κ) (v : α) : (mkeys (mset m k v)).Nodup := by
  have : mkeys (mset m k v) = k :: mkeys (mdel m k) := rfl
  rw [this, List.nodup_cons]
  exact ⟨by rw [mem_mkeys_mdel]; simp, nodup_mdel h k⟩

theorem mem_mkeys_mset {m : List (κ × α)} {k j : κ} {v : α} : j ∈ mkeys (mset m k v) ↔ j = k ∨ j ∈ mkeys m := by
  have : mkeys (mset m k v) = k :: mkeys (mdel m k) := rfl
  rw [this, List.mem_cons, mem_mkeys_mdel]
  by_cases h : j = k <;> simp [h]

theorem mem_sadd {s : List κ} {k j : κ} : j ∈ sadd s k ↔ j = k ∨ j ∈ s := by
  unfold sadd; split
  · rename_i h
    constructor
    · exact .inr
    · rintro (rfl | h')
      · exact h
      · exact h'
  · simp

theorem mem_sdel {s : List κ} {k j : κ} : j ∈ sdel s k ↔ j ∈ s ∧ j ≠ k := by simp [sdel]

theorem nodup_sadd {s : List κ} (h : s.Nodup) (k : κ) : (sadd s k).Nodup := by
  unfold sadd; split
  · exact h
  · rename_i hk; exact List.nodup_cons.mpr ⟨hk, h⟩

theorem nodup_sdel {s : List κ} (h : s.Nodup) (k : κ) : (sdel s k).Nodup := h.filter _

end Rez
