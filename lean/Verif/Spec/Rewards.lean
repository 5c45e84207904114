import Verif.Spec.Terms
/-!
Specification vocabulary for crediting rewards by instructions.
-/

namespace Verif.Spec

/-- Addresses of the pool and of the acting mining in the account list of an instruction that brings a mining up to date
(positions as documented in instruction.rs); `none` for other instructions. -/
def acting (accs : List AccountInfo) : Ix → Option (Key × Key)
  | .depositMining .. | .withdrawMining .. | .extendStake .. | .changeDelegate .. =>
    match accs with | P :: M :: _ => some (P.key, M.key) | _ => none
  | .slash .. => match accs with | _ :: P :: M :: _ => some (P.key, M.key) | _ => none
  | _ => none

/-- From `m` to `m'` exactly the entitlement from the distributions visible at `now` was credited, in whole tokens,
short of the exact value by less than one token per expired lock date plus one, and all of it is marked consumed. -/
def CreditedExactly (now : Nat) (cum : List (Nat × Nat)) (m m' : Mining) : Prop :=
  ∃ c, m'.unclaimed = m.unclaimed + c ∧ m'.index = indexBefore cum now ∧
    10 ^ 16 * c ≤ entitlement m cum now ∧
    entitlement m cum now < 10 ^ 16 * (c + expiredCount m (midnight now) + 1)

end Verif.Spec
