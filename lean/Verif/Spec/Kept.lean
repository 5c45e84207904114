import Verif.Spec.Failure
/-!
Specification vocabulary for a mining that stays in being.
-/

namespace Verif.Spec

/-- A clean event that does not remove the mining at `k` or its pool at `P`: the mining is not closed, and neither account is cleared
by the runtime.  And the mining is not taken for an old delegate in another pool (which the program does not check). -/
def KeptEvent (env : Env) (P k : Key) (s : Chain) (e : Event) : Prop :=
  CleanEvent env s e ∧ match e with
    | .ix accs i => (miningArg accs i = some k → i ≠ .closeMining) ∧
        (oldDelegateArg accs i = some k → poolArg accs i = some P)
    | .gc j => j ≠ P ∧ j ≠ k
    | _ => True

end Verif.Spec
