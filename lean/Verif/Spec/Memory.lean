import Verif.Spec.Life
import Verif.Spec.Incentive
/-!
Vocabulary for C103: states that agree about the present and the future, whatever happened before.
-/

namespace Verif.Spec

/-- Two pools agree about what is to come: the same budget until the same day, the same total stake on every day from today on, and
today's distribution has been made in both or in neither. -/
structure SameOutlook (now : Nat) (p q : Pool) : Prop where
  avail : q.tokensAvailable = p.tokensAvailable
  ends : q.distributionEndsAt = p.distributionEndsAt
  today : NewDay p now ↔ NewDay q now
  totals : ∀ x, midnight now ≤ x → totalOn q x = totalOn p x

/-- Two minings have the same stake, of their own and delegated, on every day from today on. -/
structure SameStanding (now : Nat) (m n : Mining) : Prop where
  others : n.stakeFromOthers = m.stakeFromOthers
  weights : ∀ x, midnight now ≤ x → weightOn n x = weightOn m x

/-- Whenever a stake of the mining at `k` begins or is extended, the mining's table has room for its expiry date. -/
def RoomInTable (env : Env) (k : Key) (s : Chain) : Event → Prop
  | .ix accs (.depositMining a l o d) => miningArg accs (.depositMining a l o d) = some k → RoomInMining env k s l
  | .ix accs (.extendStake ol l ts b a o d) => miningArg accs (.extendStake ol l ts b a o d) = some k → RoomInMining env k s l
  | _ => True

end Verif.Spec
