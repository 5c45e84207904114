import Verif.Spec.Life
/-!
Specification vocabulary for minings without stake.
-/

namespace Verif.Spec

/-- The mining has neither stake of its own nor delegated stake. -/
def NoStake (m : Mining) : Prop := m.share = 0 ∧ m.stakeFromOthers = 0

/-- An event that does not close the mining at `k` and after which it has no stake. -/
def LeavesBare (env : Env) (k : Key) (s : Chain) (e : Event) : Prop :=
  CleanEvent env s e ∧ (∀ accs, e = .ix accs .closeMining → miningArg accs .closeMining ≠ some k) ∧
    ∀ m, MiningAt env (s.apply env e).world k m → NoStake m

end Verif.Spec
