import Verif.Spec.Solvency
import Verif.Spec.Distribution
/-!
Specification vocabulary for what a pool pays out over a whole history.
-/

namespace Verif.Spec

/-- Tokens paid out by a claim at the pool at `k`, when it returned `ret`. -/
def paidOut (accs : List AccountInfo) (k : Key) : Ix → Option Nat → Nat
  | .claim, some n => if FirstIs accs k then n else 0
  | _, _ => 0

/-- Tokens paid out by an event to stakers of the pool at `k`. -/
def paidBy (env : Env) (k : Key) (s : Chain) : Event → Nat
  | .ix accs i =>
    match exec env s.now s.world accs i with
    | .ok (_, ret) => paidOut accs k i ret
    | .error _ => 0
  | _ => 0

/-- An event that does not move tokens into or out of `V` other than by fills and payouts: no claim is paid into `V` itself,
and nobody changes the balance of `V` from outside. -/
def Sealed (V : Key) (s : Chain) : Event → Prop
  | .ix accs i => i = .claim → accs[6]?.map (·.key) ≠ some V
  | .ext w' => balance w' V = balance s.world V
  | _ => True

end Verif.Spec
