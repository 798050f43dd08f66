import Verif.Model.Tuner
/-!
# Specification: what may become of the parameters
-/
namespace Rez.Tuner.Spec
open Rez.Tuner

/-- The range each parameter stays in. -/
structure InRange (p : Params) : Prop where
  l1 : 1 ≤ p.l1 ∧ p.l1 ≤ 2
  l2 : 1 ≤ p.l2 ∧ p.l2 ≤ 3
  eviction : 1 / 10 ≤ p.eviction ∧ p.eviction ≤ 1
  ttl : 1 / 2 ≤ p.ttl ∧ p.ttl ≤ 1
  promotion : p.promotion = 3
  preheating : p.preheating = 3 / 10

/-- The value of a parameter. -/
def valueOf (p : Params) : Name → ℚ
  | .l1 => p.l1
  | .l2 => p.l2
  | .eviction => p.eviction
  | .ttl => p.ttl

/-- The mean of three numbers. -/
def Mean (a b c m : ℚ) : Prop := a + b + c = 3 * m

/-- The hit rate falls: the mean of the last three snapshots is more than 0.05 below that of the first three, and below the target. -/
def HitRateFalls (c : Config) (h : List Snapshot) : Prop :=
  ∃ a b d x y z early late, Mean a.hitRate b.hitRate d.hitRate early ∧ Mean x.hitRate y.hitRate z.hitRate late ∧
    [a, b, d] <+: h ∧ [x, y, z] <:+ h ∧ late < early - 5 / 100 ∧ late < c.target

/-- Gets become slow: the mean of the last three latencies is more than half as much again as that of the first three, and more than
a thousand microseconds. -/
def GetsSlow (h : List Snapshot) : Prop :=
  5 ≤ h.length ∧ ∃ a b d x y z early late, Mean a.latency b.latency d.latency early ∧ Mean x.latency y.latency z.latency late ∧
    [a, b, d] <+: h ∧ [x, y, z] <:+ h ∧ late > early * 3 / 2 ∧ late > 1000

/-- The mean of something over all snapshots. -/
def Average (f : Snapshot → ℚ) (h : List Snapshot) (m : ℚ) : Prop := h ≠ [] ∧ (h.map f).sum = h.length * m

end Rez.Tuner.Spec
