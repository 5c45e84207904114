import Verif.Spec.Reduce
/-!
Specification vocabulary for comparing histories in which the same is done earlier or later.
-/

namespace Verif.Spec

/-- From `now` on, `a` tokens deposited then for the period `l` weigh on no day more than `a'` tokens deposited at `now'` for the
period `l'`.  For example: the same amount without a lock-up period, deposited earlier. -/
def Outweighs (now a : Nat) (l : LockupPeriod) (now' a' : Nat) (l' : LockupPeriod) : Prop :=
  ∀ k n k' n', terms l = some (k, n) → terms l' = some (k', n') → ∀ x, midnight now ≤ x →
    stakeWeight a k (midnight now + 86400 * n) x ≤ stakeWeight a' k' (midnight now' + 86400 * n') x

/-- From `now` on, the instruction `i` (with the accounts `accs`) takes on every day at least as much as `j` (with `accs'`) from
the pool. -/
def TakesMore (now : Nat) (accs : List AccountInfo) (i : Ix) (accs' : List AccountInfo) (j : Ix) : Prop :=
  ∀ f g, TakenFromPool accs i f → TakenFromPool accs' j g → ∀ x, midnight now ≤ x → g x ≤ f x

end Verif.Spec
