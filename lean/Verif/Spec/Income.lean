import Verif.Spec.Payout
/-!
Specification vocabulary for what a mining earns while it is left alone.
-/

namespace Verif.Spec

/-- What a mining with data `m` earns by an instruction (in 1/10^16 token): if tokens of the pool `p` at `P` are
distributed, the amount per unit of the pool's stake, rounded down, times the stake the mining earns with on that day. -/
def incomeFrom (accs : List AccountInfo) (now : Nat) (P : Key) (p : Pool) (m : Mining) (i : Ix) : Nat :=
  10 ^ 16 * distributedFrom accs now P p i / (totalOn p (midnight now)).toNat * earningOn m (midnight now)

/-- What a mining with data `m` of the pool at `P` earns by an event (in 1/10^16 token). -/
def incomeBy (env : Env) (P : Key) (m : Mining) (s : Chain) : Event → Nat
  | .ix accs i =>
    match (s.world P).content with
    | .pool p => if succeeded env s accs i = true then incomeFrom accs s.now P p m i else 0
    | _ => 0
  | _ => 0

/-- The event does not concern the account `k`: no instruction is allowed to write to it. -/
def Spares (k : Key) : Event → Prop
  | .ix accs _ => ∀ a ∈ accs, a.key = k → a.isWritable = false
  | _ => True

end Verif.Spec
