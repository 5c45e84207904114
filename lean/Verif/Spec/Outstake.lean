import Verif.Spec.Life
/-!
Specification vocabulary for comparing two stakers of the same pool in the same history.
-/

namespace Verif.Spec

/-- The stake with which the account `k` earns on a day; nothing if it is no mining. -/
def earnsWith (w : World) (k : Key) (day : Nat) : Nat :=
  match (w k).content with
  | .mining m => earningOn m day
  | _ => 0

/-- Whenever rewards of the pool at `P` are distributed, the mining at `k1` earns with at most `a / b` times the stake of the
mining at `k2`. -/
def HoldsAtMost (P k1 k2 : Key) (a b : Nat) (s : Chain) : Event → Prop
  | .ix accs .distributeRewards =>
    FirstIs accs P → b * earnsWith s.world k1 (midnight s.now) ≤ a * earnsWith s.world k2 (midnight s.now)
  | _ => True

/-- An event of a history in which both minings are treated with care (C72) and `k1` never holds more than `a / b` times the stake
of `k2` when rewards are distributed. -/
def OutstakedEvent (env : Env) (P k1 k2 : Key) (a b : Nat) (s : Chain) (e : Event) : Prop :=
  CarefulEvent env P k1 s e ∧ CarefulEvent env P k2 s e ∧ HoldsAtMost P k1 k2 a b s e

end Verif.Spec
