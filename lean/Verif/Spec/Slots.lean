import Verif.Spec.Incentive
import Verif.Spec.Life
/-!
Vocabulary for the number of stakes a mining's table has to hold (C129).
-/

namespace Verif.Spec

/-- 1 if the instruction begins or extends a stake of the mining at `k`. -/
def beginsStake (accs : List AccountInfo) (k : Key) : Ix → Nat
  | .depositMining .. | .extendStake .. => if accs[1]?.map (·.key) = some k then 1 else 0
  | _ => 0

/-- … and succeeds. -/
def stakesBegun (env : Env) (k : Key) (s : Chain) : Event → Nat
  | .ix accs i => if succeeded env s accs i = true then beginsStake accs k i else 0
  | _ => 0

/-- The event is clean and does not close the mining at `k`. -/
def KeepsOpen (env : Env) (k : Key) (s : Chain) (e : Event) : Prop :=
  CleanEvent env s e ∧ ∀ accs, e = .ix accs .closeMining → miningArg accs .closeMining ≠ some k

end Verif.Spec
