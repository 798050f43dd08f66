import Verif.Model.Locks
/-!
# Taking locks in one order
-/
namespace Rez.Locks
variable {ι L : Type} [DecidableEq ι] [DecidableEq L]

/-- The program takes locks in increasing rank only, drops what it holds, and ends with nothing held. -/
def Ordered (rank : L → Nat) : List (L × Mode) → List (Instr L) → Prop
  | held, [] => held = []
  | held, .acquire l m :: p => (∀ h ∈ held, rank h.1 < rank l) ∧ Ordered rank ((l, m) :: held) p
  | held, .release l m :: p => (l, m) ∈ held ∧ Ordered rank (held.erase (l, m)) p

/-- `Ordered` can be computed. -/
def orderedDec (rank : L → Nat) : ∀ held p, Decidable (Ordered rank held p)
  | held, [] => inferInstanceAs (Decidable (held = []))
  | held, .acquire l m :: p =>
    have := orderedDec rank ((l, m) :: held) p
    inferInstanceAs (Decidable (_ ∧ _))
  | held, .release l m :: p =>
    have := orderedDec rank (held.erase (l, m)) p
    inferInstanceAs (Decidable (_ ∧ _))

instance (rank : L → Nat) (held : List (L × Mode)) (p : List (Instr L)) : Decidable (Ordered rank held p) :=
  orderedDec rank held p

theorem ordered_append {rank : L → Nat} {held : List (L × Mode)} {p q : List (Instr L)} (hp : Ordered rank held p)
    (hq : Ordered rank [] q) : Ordered rank held (p ++ q) := by
  induction p generalizing held with
  | nil => unfold Ordered at hp; subst hp; exact hq
  | cons a p ih =>
    cases a with
    | acquire l m => exact ⟨hp.1, ih hp.2⟩
    | release l m => exact ⟨hp.1, ih hp.2⟩

theorem ordered_flatMap {α : Type} {rank : L → Nat} {f : α → List (Instr L)} {l : List α}
    (h : ∀ x ∈ l, Ordered rank [] (f x)) : Ordered rank [] (l.flatMap f) := by
  induction l with
  | nil => rfl
  | cons a l ih =>
    rw [List.flatMap_cons]
    exact ordered_append (h a List.mem_cons_self) (ih fun x hx => h x (List.mem_cons_of_mem _ hx))

/-- waiting tasks are about to take that lock, and all keep to the order -/
structure Inv (rank : L → Nat) (s : State ι L) : Prop where
  queued : ∀ l i, i ∈ s.queue l → ∃ m rest, (s.task i).todo = .acquire l m :: rest
  nodup : ∀ l, (s.queue l).Nodup
  ordered : ∀ i, Ordered rank (s.task i).held (s.task i).todo

theorem inv_start {rank : L → Nat} {prog : ι → List (Instr L)} (h : ∀ i, Ordered rank [] (prog i)) :
    Inv rank (start prog) :=
  ⟨(fun l i hi => by cases hi), fun _ => List.nodup_nil, h⟩

theorem inv_step {rank : L → Nat} {s s' : State ι L} (h : Inv rank s) (hs : Step s s') : Inv rank s' := by
  cases hs with
  | @wait i l m rest hi hq =>
    refine ⟨fun l' j hj => ?_, fun l' => ?_, h.ordered⟩
    · simp only at hj ⊢
      by_cases hl : l' = l
      · subst hl
        rw [Function.update_self] at hj
        rcases List.mem_append.mp hj with hj | hj
        · exact h.queued l' j hj
        · rw [List.mem_singleton.mp hj]; exact ⟨m, rest, hi⟩
      · rw [Function.update_of_ne hl] at hj
        exact h.queued l' j hj
    · simp only
      by_cases hl : l' = l
      · subst hl
        rw [Function.update_self]
        exact List.nodup_append.mpr ⟨h.nodup l', by simp, fun a ha b hb => by
          rw [List.mem_singleton.mp hb]; rintro rfl; exact hq ha⟩
      · rw [Function.update_of_ne hl]; exact h.nodup l'
  | @grant i l m rest q hi hq hg =>
    have hnd := h.nodup l
    rw [hq, List.nodup_cons] at hnd
    refine ⟨fun l' j hj => ?_, fun l' => ?_, fun j => ?_⟩
    · simp only at hj ⊢
      have hji : j ≠ i := by
        rintro rfl
        by_cases hl : l' = l
        · subst hl; rw [Function.update_self] at hj; exact hnd.1 hj
        · rw [Function.update_of_ne hl] at hj
          obtain ⟨m', rest', h'⟩ := h.queued l' j hj
          rw [hi] at h'
          simp only [List.cons.injEq, Instr.acquire.injEq] at h'
          exact hl h'.1.1.symm
      rw [Function.update_of_ne hji]
      by_cases hl : l' = l
      · subst hl
        rw [Function.update_self] at hj
        exact h.queued l' j (by rw [hq]; exact List.mem_cons_of_mem _ hj)
      · rw [Function.update_of_ne hl] at hj
        exact h.queued l' j hj
    · simp only
      by_cases hl : l' = l
      · subst hl; rw [Function.update_self]; exact hnd.2
      · rw [Function.update_of_ne hl]; exact h.nodup l'
    · simp only
      by_cases hji : j = i
      · subst hji
        rw [Function.update_self]
        have := h.ordered j
        rw [hi] at this
        exact this.2
      · rw [Function.update_of_ne hji]; exact h.ordered j
  | @release i l m rest hi =>
    refine ⟨fun l' j hj => ?_, h.nodup, fun j => ?_⟩
    · simp only at hj ⊢
      have hji : j ≠ i := by
        rintro rfl
        obtain ⟨m', rest', h'⟩ := h.queued l' j hj
        rw [hi] at h'
        simp at h'
      rw [Function.update_of_ne hji]
      exact h.queued l' j hj
    · simp only
      by_cases hji : j = i
      · subst hji
        rw [Function.update_self]
        have := h.ordered j
        rw [hi] at this
        exact this.2
      · rw [Function.update_of_ne hji]; exact h.ordered j

theorem inv_reachable {rank : L → Nat} {prog : ι → List (Instr L)} (h : ∀ i, Ordered rank [] (prog i))
    {s : State ι L} (hs : Reachable prog s) : Inv rank s := by
  induction hs with
  | refl => exact inv_start h
  | tail _ hst ih => exact inv_step ih hst

/-- in a deadlock, a lock that is waited for is held by a task that waits for a higher one -/
theorem deadlock_higher {rank : L → Nat} {s : State ι L} (h : Inv rank s) (hd : ∀ s', ¬ Step s s') {l : L}
    (hl : s.queue l ≠ []) : ∃ l', s.queue l' ≠ [] ∧ rank l < rank l' := by
  obtain ⟨i, q, hq⟩ := List.exists_cons_of_ne_nil hl
  obtain ⟨m, rest, hi⟩ := h.queued l i (by rw [hq]; exact List.mem_cons_self)
  have hng : ¬ Grantable s l m := fun hg => hd _ (.grant hi hq hg)
  have hholder : ∃ j m', (l, m') ∈ (s.task j).held := by
    by_contra hno
    apply hng
    cases m with
    | write => exact fun j m' hm => hno ⟨j, m', hm⟩
    | read => exact fun j hm => hno ⟨j, _, hm⟩
  obtain ⟨j, m', hj⟩ := hholder
  have hord := h.ordered j
  cases htodo : (s.task j).todo with
  | nil =>
    rw [htodo] at hord
    unfold Ordered at hord
    rw [hord] at hj
    cases hj
  | cons a p =>
    rw [htodo] at hord
    cases a with
    | release l' m'' => exact absurd (.release htodo) (hd _)
    | acquire l' m'' =>
      refine ⟨l', ?_, hord.1 _ hj⟩
      intro hemp
      exact hd _ (.wait htodo (by rw [hemp]; exact List.not_mem_nil))

/-- Tasks that take locks in increasing rank only never deadlock. -/
theorem no_deadlock {rank : L → Nat} {bound : Nat} (hb : ∀ l, rank l < bound) {prog : ι → List (Instr L)}
    (h : ∀ i, Ordered rank [] (prog i)) {s : State ι L} (hs : Reachable prog s) : ¬ Deadlocked s := by
  rintro ⟨⟨i, hi⟩, hd⟩
  have inv := inv_reachable h hs
  have key : ∀ n (l : L), bound - rank l = n → s.queue l = [] := by
    intro n
    induction n using Nat.strongRecOn with
    | _ n ih =>
      intro l hn
      by_contra hl
      obtain ⟨l', hl', hlt⟩ := deadlock_higher inv hd hl
      have h1 := hb l
      have h2 := hb l'
      exact hl' (ih (bound - rank l') (by omega) l' rfl)
  cases htodo : (s.task i).todo with
  | nil => exact hi htodo
  | cons a p =>
    cases a with
    | release l m => exact hd _ (.release htodo)
    | acquire l m => exact hd _ (.wait htodo (by rw [key _ l rfl]; exact List.not_mem_nil))

/-- the task holds the lock for writing and will ask for it again before dropping it -/
def Selfish (l : L) (t : Task L) : Prop :=
  (l, Mode.write) ∈ t.held ∧ ∃ p m q, t.todo = p ++ .acquire l m :: q ∧ .release l .write ∉ p

/-- the task is selfish or is about to become so -/
def Doomed (l : L) (t : Task L) : Prop :=
  Selfish l t ∨ ∃ p m q, t.todo = .acquire l .write :: p ++ .acquire l m :: q ∧ .release l .write ∉ p

theorem doomed_step {l : L} {i : ι} {s s' : State ι L} (h : Doomed l (s.task i)) (hs : Step s s') :
    Doomed l (s'.task i) := by
  cases hs with
  | wait => exact h
  | @grant j l' m' rest q hi hq hg =>
    simp only
    by_cases hij : i = j
    · subst hij
      rw [Function.update_self]
      rcases h with ⟨hh, p, m, q', ht, hp⟩ | ⟨p, m, q', ht, hp⟩
      · cases p with
        | nil =>
          rw [List.nil_append, hi] at ht
          simp only [List.cons.injEq, Instr.acquire.injEq] at ht
          obtain ⟨⟨rfl, rfl⟩, rfl⟩ := ht
          exfalso
          cases m' with
          | write => exact hg i _ hh
          | read => exact hg i hh
        | cons a p =>
          rw [List.cons_append, hi] at ht
          simp only [List.cons.injEq] at ht
          exact .inl ⟨List.mem_cons_of_mem _ hh, p, m, q', ht.2, fun hm => hp (List.mem_cons_of_mem _ hm)⟩
      · rw [List.cons_append, hi] at ht
        simp only [List.cons.injEq, Instr.acquire.injEq] at ht
        obtain ⟨⟨rfl, rfl⟩, rfl⟩ := ht
        exact .inl ⟨List.mem_cons_self, p, m, q', rfl, hp⟩
    · rw [Function.update_of_ne hij]; exact h
  | @release j l' m' rest hi =>
    simp only
    by_cases hij : i = j
    · subst hij
      rw [Function.update_self]
      rcases h with ⟨hh, p, m, q', ht, hp⟩ | ⟨p, m, q', ht, hp⟩
      · cases p with
        | nil => rw [List.nil_append, hi] at ht; simp at ht
        | cons a p =>
          rw [List.cons_append, hi] at ht
          simp only [List.cons.injEq] at ht
          have hne : (l', m') ≠ (l, Mode.write) := by
            intro he
            simp only [Prod.mk.injEq] at he
            apply hp
            rw [← ht.1, he.1, he.2]
            exact List.mem_cons_self
          exact .inl ⟨(List.mem_erase_of_ne hne.symm).mpr hh, p, m, q', ht.2, fun hm => hp (List.mem_cons_of_mem _ hm)⟩
      · rw [List.cons_append, hi] at ht; simp at ht
    · rw [Function.update_of_ne hij]; exact h

/-- a doomed task never finishes, whatever the others do -/
theorem doomed_never {l : L} {i : ι} {prog : ι → List (Instr L)} (h : Doomed l ⟨[], prog i⟩) {s : State ι L}
    (hs : Reachable prog s) : (s.task i).todo ≠ [] := by
  have key : Doomed l (s.task i) := by
    induction hs with
    | refl => exact h
    | tail _ hst ih => exact doomed_step ih hst
  rcases key with ⟨_, p, m, q, ht, _⟩ | ⟨p, m, q, ht, _⟩ <;> rw [ht] <;> simp

end Rez.Locks
