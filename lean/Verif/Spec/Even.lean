import Verif.Spec.Distribution
import Verif.Spec.World
/-!
Specification vocabulary for the even distribution of a budget.
-/

namespace Verif.Spec

/-- Days for which the budget still has to last: those from today on (from tomorrow on, if there was a distribution today) to the
last one that ends at least a day before the end of distribution. -/
def daysAhead (p : Pool) (now : Nat) : Nat :=
  (p.distributionEndsAt - midnight now) / 86400 - (if NewDay p now then 1 else 2)

/-- A clean event that is not a distribution from the pool at `P` in the first second of a day. -/
def OffMidnight (env : Env) (P : Key) (s : Chain) (e : Event) : Prop :=
  CleanEvent env s e ∧ match e with
    | .ix accs .distributeRewards =>
      succeeded env s accs .distributeRewards = true → FirstIs accs P → s.now % 86400 ≠ 0
    | _ => True

/-- There is a recorded distribution for every day from the one of `start` to the one before `now`. -/
def EveryDay (p : Pool) (start now : Nat) : Prop :=
  ∀ d, midnight start ≤ d → d < midnight now → d % 86400 = 0 → ∃ e ∈ p.cumulative, e.1 = d

end Verif.Spec
