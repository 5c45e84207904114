import Verif.Spec.Scale
/-!
Specification vocabulary for the share of a mining in the stake of a pool.
-/

namespace Verif.Spec

/-- If tokens of the pool at `P` are distributed, then the stake with which the mining at `k` earns on that day and the total stake of
the pool are related by `R`. -/
def Shares (env : Env) (P k : Key) (R : (stake total : Nat) → Prop) (s : Chain) (e : Event) : Prop :=
  0 < distributedBy env P s e → ∃ m p, MiningAt env s.world k m ∧ PoolAt env s.world P p ∧
    R (earningOn m (midnight s.now)) (totalOn p (midnight s.now)).toNat

end Verif.Spec
