import Verif.Spec.Filling
import Verif.Spec.Scale
/-!
Specification vocabulary for comparing two histories whose budgets are in a fixed proportion.
-/

namespace Verif.Spec

/-- The difference of two numbers, whichever is larger. -/
def gap (x y : Nat) : Nat := (x - y) + (y - x)

/-- Two events are the same, except that the amounts with which a vault is filled are in the proportion `a` to `b` (and that what
other programs do may differ). -/
def RatioFill (a b : Nat) (e e' : Event) : Prop :=
  match e with
  | .ix accs (.fillVault r x) => ∃ r', e' = .ix accs (.fillVault r' x) ∧ b * r = a * r'
  | .ext _ => ∃ w, e' = .ext w
  | e => e' = e

/-- Two pools with the same distribution days until the same end. -/
def SameCalendar (p q : Pool) : Prop :=
  p.cumulative.map (·.1) = q.cumulative.map (·.1) ∧ p.distributionEndsAt = q.distributionEndsAt

/-- The same pools and minings, which differ at most in their rewards. -/
structure SameButRewards (env : Env) (v w : World) : Prop where
  pools : ∀ k p, PoolAt env v k p → ∃ q, PoolAt env w k q ∧ SameStakes p q
  poolsBack : ∀ k q, PoolAt env w k q → ∃ p, PoolAt env v k p
  minings : ∀ k m, MiningAt env v k m → m.accountType = 2 → ∃ n, MiningAt env w k n ∧ SameStake m n
  miningsBack : ∀ k n, MiningAt env w k n → n.accountType = 2 → ∃ m, MiningAt env v k m ∧ m.accountType = 2

end Verif.Spec
