import Verif.Spec.Outsider
/-!
Specification vocabulary for the order in which instructions of different stakers are executed.
-/

namespace Verif.Spec

/-- Instructions executed on behalf of one staker of an existing pool. -/
def forStaker : Ix → Bool
  | .depositMining .. | .withdrawMining .. | .extendStake .. | .slash .. | .changeDelegate .. | .decreaseRewards .. |
    .claim => true
  | _ => false

/-- The mining account at `k` is passed to the instruction as the staker's mining or as a delegate's. -/
def Touches (accs : List AccountInfo) (i : Ix) (k : Key) : Prop :=
  miningArg accs i = some k ∨ delegateArg accs i = some k ∨ oldDelegateArg accs i = some k

/-- Two instructions for stakers of the pool at `P` that have no mining account in common. -/
structure Independent (env : Env) (w : World) (P : Key) (a : List AccountInfo) (i : Ix) (b : List AccountInfo) (j : Ix) : Prop where
  kind : forStaker i = true ∧ forStaker j = true
  pool : poolArg a i = some P ∧ poolArg b j = some P
  minings : ∀ k, Touches a i k ∨ Touches b j k → ∃ m, MiningAt env w k m
  disjoint : ∀ k, Touches a i k → ¬ Touches b j k

/-- Two states that nobody can tell apart from `now` on: every account but the pool's and the token accounts is the same, every
token balance is the same, and the pool has the same configuration, the same budget, the same index with the same history, and the
same total on every day from today on. -/
structure SameOutcome (env : Env) (now : Nat) (P : Key) (v w : World) : Prop where
  accounts : ∀ k, k ≠ P → (v k).owner ≠ env.tokenProgram → w k = v k
  balances : ∀ k, balance w k = balance v k
  pool : ∃ p q, PoolAt env v P p ∧ PoolAt env w P q ∧ SameConfig p q ∧ SameBudget p q ∧
    ∀ x, midnight now ≤ x → totalOn q x = totalOn p x

end Verif.Spec
