import Verif.Lemmas.ResolverResult
/-!
# Runs of the resolver that do not end
-/
namespace Rez
open Rez.Spec Rez.RState Rez.Resolver

theorem run_more {env : Env} {fuel t : Nat} {s : RState} {o : Option RState} (h : run env fuel t s = some o) (k : Nat) :
    run env (fuel + k) t s = some o := by
  induction fuel generalizing t s with
  | zero => cases h
  | succ fuel ih =>
    rw [Nat.add_right_comm]
    unfold run at h ⊢
    split at h
    · exact h
    · split at h
      · exact h
      · exact ih h

/-! ## When the iteration order does not change with time, neither does a step -/

section Timeless
variable {env : Env} (h : ∀ t, env.order t = env.order 0)
include h

theorem rebuild_timeless (t : Nat) (s : RState) : rebuild env t s = rebuild env 0 s := by
  unfold rebuild
  rw [h (2 * t), h (2 * t + 1), h (2 * 0), h (2 * 0 + 1)]

theorem select_timeless (t : Nat) (s : RState) (n : Str) (q : Info × List Requirement × List Requirement) :
    select env t s n q = select env 0 s n q := by
  unfold select setRequirements
  simp only
  rw [rebuild_timeless h]

theorem tryCandidates_timeless (t : Nat) (r : Requirement) (cs : List Package) (s : RState) (best : Option Package) :
    tryCandidates env t r cs s best = tryCandidates env 0 r cs s best := by
  induction cs generalizing s best with
  | nil => rfl
  | cons c cs ih => simp only [tryCandidates, ih, select_timeless h t]

theorem backtrackCandidates_timeless (t : Nat) (n : Str) (cur : Info) (reqs : List Requirement) (prim : Requirement)
    (cs : List Package) (s : RState) :
    backtrackCandidates env t n cur reqs prim cs s = backtrackCandidates env 0 n cur reqs prim cs s := by
  induction cs generalizing s with
  | nil => rfl
  | cons c cs ih => simp only [backtrackCandidates, ih, select_timeless h t]

theorem backtrackLoop_timeless (t : Nat) (ns : List Str) (s : RState) :
    backtrackLoop env t ns s = backtrackLoop env 0 ns s := by
  induction ns generalizing s with
  | nil => rfl
  | cons n ns ih =>
    have : ∀ s n, backtrackPackage env t s n = backtrackPackage env 0 s n := fun s n => by
      simp only [backtrackPackage, backtrackCandidates_timeless h t]
    simp only [backtrackLoop, ih, this]

theorem process_timeless (t : Nat) (s : RState) (r : Requirement) : process env t s r = process env 0 s r := by
  simp only [process, tryCandidates_timeless h t, afterCandidates, backtrackSource, backtrackLoop_timeless h t,
    select_timeless h t]

end Timeless

/-- One iteration of the loop that does not end it. -/
def advance (env : Env) (s : RState) : Option RState :=
  match s.getNext with
  | none => none
  | some (r, s) => process env 0 s r

/-- Several iterations. -/
def advances (env : Env) : Nat → RState → Option RState
  | 0, s => some s
  | n + 1, s => match advance env s with
    | none => none
    | some s => advances env n s

theorem run_advance {env : Env} (h : ∀ t, env.order t = env.order 0) {s s' : RState} (ha : advance env s = some s')
    (fuel t : Nat) : run env (fuel + 1) t s = run env fuel (t + 1) s' := by
  unfold advance at ha
  rw [run]
  split at ha
  · cases ha
  · rename_i r s1 hg
    rw [hg]
    simp only
    rw [process_timeless h t, ha]

theorem run_advances {env : Env} (h : ∀ t, env.order t = env.order 0) (k : Nat) {s s' : RState}
    (ha : advances env k s = some s') (fuel t : Nat) :
    run env (fuel + k) t s = run env fuel (t + k) s' ∧ ∀ m ≤ k, run env m t s = none := by
  induction k generalizing s t with
  | zero =>
    simp [advances] at ha
    subst ha
    refine ⟨rfl, fun m hm => ?_⟩
    rw [Nat.le_zero.mp hm]; rfl
  | succ k ih =>
    unfold advances at ha
    cases h1 : advance env s with
    | none => rw [h1] at ha; cases ha
    | some s1 =>
      rw [h1] at ha
      have := ih ha (t + 1)
      constructor
      · rw [← Nat.add_assoc, run_advance h h1, this.1]
        congr 1
        omega
      · intro m hm
        cases m with
        | zero => rfl
        | succ m => rw [run_advance h h1]; exact this.2 m (by omega)

/-- a state that comes back never ends -/
theorem run_periodic {env : Env} (h : ∀ t, env.order t = env.order 0) {p : Nat} (hp : 0 < p) {s : RState}
    (ha : advances env p s = some s) (fuel t : Nat) : run env fuel t s = none := by
  induction fuel using Nat.strongRecOn generalizing t with
  | _ fuel ih =>
    by_cases hf : fuel ≤ p
    · exact (run_advances h p ha 0 t).2 fuel hf
    · obtain ⟨m, rfl⟩ : ∃ m, fuel = m + p := ⟨fuel - p, by omega⟩
      rw [(run_advances h p ha m t).1]
      exact ih m (by omega) _

theorem diverges {env : Env} {reqs : List Requirement} {k p : Nat} (h : ∀ t, env.order t = env.order 0)
    (hk : (advances env k (RState.new env reqs)).isSome = true)
    (hp : (advances env k (RState.new env reqs)).bind (advances env (p + 1)) = advances env k (RState.new env reqs)) :
    ∀ fuel, resolve env fuel reqs = none := by
  intro fuel
  obtain ⟨s, hs⟩ := Option.isSome_iff_exists.mp hk
  rw [hs] at hp
  have hr : ∀ fuel, run env fuel 1 (RState.new env reqs) = none := by
    intro fuel
    by_cases hf : fuel ≤ k
    · exact (run_advances h k hs 0 1).2 fuel hf
    · obtain ⟨m, rfl⟩ : ∃ m, fuel = m + k := ⟨fuel - k, by omega⟩
      rw [(run_advances h k hs m 1).1]
      exact run_periodic h (Nat.succ_pos p) hp m _
  unfold resolve
  rw [hr]; rfl

end Rez
