import Verif.Spec.Incentive
/-!
Specification vocabulary for comparing histories in which more or less stake is taken away.
-/

namespace Verif.Spec

/-- The instruction takes stake away: a withdrawal or a slash. -/
def takesStake : Ix → Bool
  | .withdrawMining .. | .slash .. => true
  | _ => false

/-- What a withdrawal or a slash takes from the stake of its mining on the day starting at `x`. -/
def takenOn (i : Ix) (x : Nat) : Int :=
  match i with
  | .withdrawMining a _ _ => a
  | .slash _ n mu ex => slashWeight n mu ex x
  | _ => 0

/-- The stake named by the instruction is delegated. -/
def Delegated (accs : List AccountInfo) (i : Ix) : Prop :=
  ∃ D, delegateArg accs i = some D ∧ miningArg accs i ≠ some D

/-- The instruction takes `f x` from the total of the pool on the day starting at `x`: delegated stake counts for the staker
and for the delegate. -/
def TakenFromPool (accs : List AccountInfo) (i : Ix) (f : Nat → Int) : Prop :=
  (Delegated accs i → ∀ x, f x = takenOn i x + takenOn i x) ∧ (¬ Delegated accs i → ∀ x, f x = takenOn i x)

/-- Compared with the instruction `i`, the event takes no more stake from the pool at `P`: it is a withdrawal or a slash of
no more on any day from today on, or nothing happens. -/
def TakesLess (P : Key) (s : Chain) (accs : List AccountInfo) (i : Ix) : Event → Prop
  | .ix accs' j => takesStake j = true ∧ poolArg accs' j = some P ∧ ∀ f g, TakenFromPool accs i f →
      TakenFromPool accs' j g → ∀ x, midnight s.now ≤ x → g x ≤ f x
  | .tick n => n = 0
  | _ => False

/-- The event concerns no stake but that of the mining at `M`. -/
def OnlyFrom (M : Key) : Event → Prop
  | .ix accs i => miningArg accs i = some M ∧ ¬ Delegated accs i
  | _ => True

end Verif.Spec
