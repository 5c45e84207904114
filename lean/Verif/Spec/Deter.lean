import Verif.Spec.Aside
import Verif.Spec.Life
/-!
Specification vocabulary for the comparison of a penalized staker with one who is not.
-/

namespace Verif.Spec

/-- A penalty on the mining at `k`. -/
def PenaltyOn (k : Key) : Event → Prop
  | .ix accs (.decreaseRewards o n) => miningArg accs (.decreaseRewards o n) = some k
  | _ => False

/-- An event as in `CarefulEvent`, or else a penalty on the mining at `k`. -/
def CarefulOrPenalty (env : Env) (P k : Key) (s : Chain) (e : Event) : Prop :=
  CarefulEvent env P k s e ∨ CleanEvent env s e ∧ PenaltyOn k e

end Verif.Spec
