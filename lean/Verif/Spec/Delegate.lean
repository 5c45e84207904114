import Verif.Spec.Exact
/-!
Specification vocabulary for instructions that differ in the delegate only.
-/

namespace Verif.Spec

/-- What a delegate gets of an amount: everything, if there is a delegate. -/
def delegated (d : Option Mining) (a : Nat) : Nat := if d.isSome then a else 0

/-- Two states that differ in whom stake was delegated to: the mining at `M` is the same account in both, the pool at `P`
differs in its total only (the totals minus `x1` and `x2` are the same), and outside of the minings of the two delegates `D1`
and `D2` nothing else differs. -/
structure SameForStaker (env : Env) (w1 w2 : World) (P M D1 D2 : Key) (x1 x2 : Nat) : Prop where
  staker : w2 M = w1 M
  pool : ∃ q t, PoolAt env w1 P q ∧ PoolAt env w2 P { q with totalShare := t } ∧ q.totalShare + x2 = t + x1
  others : ∀ k, k ≠ P → k ≠ D1 → k ≠ D2 → w2 k = w1 k

end Verif.Spec
