import Verif.Spec.Distribution
/-!
Specification vocabulary for fillings that prolong a distribution.
-/

namespace Verif.Spec

/-- If the event is a filling of the pool at `P`, it brings at least `a` tokens for each day by which it moves the end of
distribution. -/
def PaysFor (env : Env) (a : Nat) (P : Key) (s : Chain) : Event → Prop
  | .ix accs (.fillVault r e) => FirstIs accs P → ∀ p, PoolAt env s.world P p →
      a * ((midnight e - p.distributionEndsAt) / 86400) ≤ r
  | _ => True

end Verif.Spec
