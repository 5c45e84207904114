import Verif.Spec.Income
/-!
Specification vocabulary for comparing two histories that begin with different deposits.
-/

namespace Verif.Spec

/-- Whenever a stake of pool `P` begins or is extended, the pool's table has room for its expiry date. -/
def RoomInPool (env : Env) (P : Key) (s : Chain) : Event → Prop
  | .ix accs (.depositMining _ l _ _) => FirstIs accs P → ∀ p k n, PoolAt env s.world P p → terms l = some (k, n) →
      HasRoom env.caps.pool p.diffs (midnight s.now + 86400 * n)
  | .ix accs (.extendStake _ l _ _ _ _ _) => FirstIs accs P → ∀ p k n, PoolAt env s.world P p →
      terms l = some (k, n) → HasRoom env.caps.pool p.diffs (midnight s.now + 86400 * n)
  | _ => True

/-- The event does not fail. -/
def goesThrough (env : Env) (s : Chain) : Event → Bool
  | .ix accs i => succeeded env s accs i
  | _ => true

/-- Two events are the same as far as the program is concerned: what other programs do may differ. -/
def SameEvent (e e' : Event) : Prop := e = e' ∨ ∃ w w', e = .ext w ∧ e' = .ext w'

/-- Events related by `R` happen from two states, and what succeeds in one of the two histories succeeds in the other. -/
def Alike (env : Env) (R : Event → Event → Prop) : Chain → Chain → List Event → List Event → Prop
  | _, _, [], [] => True
  | s, t, e :: es, e' :: es' => R e e' ∧ goesThrough env s e = goesThrough env t e' ∧
      Alike env R (s.apply env e) (t.apply env e') es es'
  | _, _, _, _ => False

/-- The stake with which a mining with data `m` takes part in a distribution of the pool at `P`; 0 for other events. -/
def takesPart (env : Env) (P : Key) (m : Mining) (s : Chain) (e : Event) : Nat :=
  if 0 < distributedBy env P s e then earningOn m (midnight s.now) else 0

/-- `a'` tokens for the period `l'` are at least as much, for at least as long and with at least the multiplier, as `a` for
`l`. -/
def AtLeast (a : Nat) (l : LockupPeriod) (a' : Nat) (l' : LockupPeriod) : Prop :=
  a ≤ a' ∧ ∃ k n k' n', terms l = some (k, n) ∧ terms l' = some (k', n') ∧ k ≤ k' ∧ n ≤ n'

/-- The table of the mining at `M` has room for the expiry date of a stake that begins now. -/
def RoomInMining (env : Env) (M : Key) (s : Chain) (l : LockupPeriod) : Prop :=
  ∀ m k n, MiningAt env s.world M m → terms l = some (k, n) →
    HasRoom env.caps.mining (laterThan m.diffs (midnight s.now)) (midnight s.now + 86400 * n)

end Verif.Spec
