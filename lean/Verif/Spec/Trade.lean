import Verif.Spec.Incentive
import Verif.Spec.Life
/-!
Specification vocabulary for stake that is delegated instead of being deposited by the delegate.
-/

namespace Verif.Spec

/-- Two minings that differ only in that `x` of the stake is delegated in the first and the owner's in the second. -/
structure Instead (x : Nat) (m n : Mining) : Prop where
  own : n.share = m.share + x
  others : m.stakeFromOthers = n.stakeFromOthers + x
  rest : m = { n with share := m.share, stakeFromOthers := m.stakeFromOthers }

/-- Two worlds that are the same, except that in the mining at `k` (if it still exists) `x` of the stake is delegated in the
first and the owner's in the second. -/
def DelegatedInstead (env : Env) (x : Nat) (k : Key) (v w : World) : Prop :=
  v = w ∨ ((∀ j, j ≠ k → v j = w j) ∧
    ∃ m n, MiningAt env v k m ∧ w k = { v k with content := .mining n } ∧ Instead x m n)

/-- Two events are the same, except for what other programs see in the account at `k` of this program. -/
def SameElsewhere (env : Env) (k : Key) (e e' : Event) : Prop :=
  e = e' ∨ ∃ w w', e = .ext w ∧ e' = .ext w' ∧ (∀ j, j ≠ k → w j = w' j) ∧ (w k).owner = env.programId ∧
    w' k = { w k with content := (w' k).content }

/-- A successful deposit of `a` for the period `l` into the pool at `P`, for the mining at `M`, with `D` as the delegate's
mining (`M` itself if the stake is not delegated). -/
def Deposits (env : Env) (P M D : Key) (a : Nat) (l : LockupPeriod) (s : Chain) (e : Event) : Prop :=
  ∃ accs o d, e = .ix accs (.depositMining a l o d) ∧ succeeded env s accs (.depositMining a l o d) = true ∧
    poolArg accs (.depositMining a l o d) = some P ∧ miningArg accs (.depositMining a l o d) = some M ∧
    delegateArg accs (.depositMining a l o d) = some D

end Verif.Spec
