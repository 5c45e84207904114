import Verif.Spec.Early
import Verif.Spec.Extend
/-!
Specification vocabulary for comparing histories with and without the extension of a stake.
-/

namespace Verif.Spec

/-- From `now` on, the stake of `b` tokens made at `ts` for the period `old` weighs on no day more than `c` tokens that begin at `now`
with the period `new`.  For example: the period is at least as long and `c` at least `b`. -/
def Gains (now : Nat) (old : LockupPeriod) (ts b : Nat) (new : LockupPeriod) (c : Nat) : Prop :=
  ∀ k n k' n', terms old = some (k, n) → terms new = some (k', n') → ∀ x, midnight now ≤ x →
    stakeWeight b k (midnight ts + 86400 * n) x ≤ stakeWeight c k' (midnight now + 86400 * n') x

end Verif.Spec
