import Verif.Spec.Group
import Verif.Spec.Split
/-!
Specification vocabulary for changes of the delegate.
-/

namespace Verif.Spec

/-- A successful change of the delegate of `a` tokens, in the pool at `P`, of the owner of the mining at `M`: from the mining at `O`
to the one at `D` (`M` itself for stake that is not delegated). -/
def Redelegates (env : Env) (P M O D : Key) (a : Nat) (s : Chain) (e : Event) : Prop :=
  ∃ accs d, e = .ix accs (.changeDelegate a d) ∧ succeeded env s accs (.changeDelegate a d) = true ∧
    poolArg accs (.changeDelegate a d) = some P ∧ miningArg accs (.changeDelegate a d) = some M ∧
    oldDelegateArg accs (.changeDelegate a d) = some O ∧ delegateArg accs (.changeDelegate a d) = some D

end Verif.Spec
