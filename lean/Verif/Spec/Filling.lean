import Verif.Spec.Incentive
import Verif.Spec.Life
import Verif.Spec.Solvency
/-!
Specification vocabulary for comparing two histories that differ in the rewards put into the pools.
-/

namespace Verif.Spec

/-- Two minings differ at most in their rewards. -/
def SameStake (m n : Mining) : Prop := n = { m with unclaimed := n.unclaimed, index := n.index }

/-- Two pools differ at most in their rewards. -/
def SameStakes (p q : Pool) : Prop :=
  q = { p with tokensAvailable := q.tokensAvailable, distributionEndsAt := q.distributionEndsAt, index := q.index,
               cumulative := q.cumulative }

/-- Two events are the same, except for the amount and the end date with which a vault is filled. -/
def OtherFill (e e' : Event) : Prop :=
  SameEvent e e' ∨ ∃ accs r t r' t', e = .ix accs (.fillVault r t) ∧ e' = .ix accs (.fillVault r' t')

/-- Two events are the same, except that a vault may be filled with more tokens in the second. -/
def LargerFill (e e' : Event) : Prop :=
  SameEvent e e' ∨ ∃ accs r r' t, e = .ix accs (.fillVault r t) ∧ e' = .ix accs (.fillVault r' t) ∧ r ≤ r'

/-- An event without type confusion in which the two unchecked account arguments are as they should be; the accounts of the
pool `P` and of its minings are not removed while they are in use. -/
def Straight (env : Env) (P : Key) (s : Chain) (e : Event) : Prop :=
  CleanEvent env s e ∧ match e with
    | .ix accs i => HonestArgs env s.world accs i
    | .gc k => k ≠ P ∧ ∀ m, ¬ Member env s.world P k m
    | _ => True

/-- Tokens paid by an event from the pool `P` to the owner of the mining at `k`. -/
def claimedFrom (env : Env) (P k : Key) (s : Chain) : Event → Nat
  | .ix accs i => if FirstIs accs P then claimedBy env k s (.ix accs i) else 0
  | _ => 0

end Verif.Spec
