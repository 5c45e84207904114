import Verif.Spec.Income
import Verif.Spec.Failure
/-!
Specification vocabulary for the account of a mining over its whole life.
-/

namespace Verif.Spec

/-- Instructions that change the stake of their mining. -/
def restakes : Ix → Bool
  | .depositMining .. | .withdrawMining .. | .extendStake .. | .slash .. => true
  | _ => false

/-- What the life of the mining at `k` of the pool at `P` must be spared: being closed or penalized; changes of its own stake in
the first second of a day; and changes of the stake delegated to it while it is not up to date. -/
structure Careful (env : Env) (P k : Key) (now : Nat) (w : World) (accs : List AccountInfo) (i : Ix) : Prop where
  own : miningArg accs i = some k → i ≠ .closeMining ∧ (∀ o n, i ≠ .decreaseRewards o n) ∧
    (restakes i = true → now ≠ midnight now)
  delegated : miningArg accs i ≠ some k → delegateArg accs i = some k ∨ oldDelegateArg accs i = some k →
    poolArg accs i = some P ∧ ∀ m p, MiningAt env w k m → PoolAt env w P p → p.index ≤ m.index

/-- A clean event whose instruction, if it succeeds, is `Careful`. -/
def CarefulEvent (env : Env) (P k : Key) (s : Chain) (e : Event) : Prop :=
  CleanEvent env s e ∧ match e with
    | .ix accs i => succeeded env s accs i = true → Careful env P k s.now s.world accs i
    | _ => True

/-- Tokens paid by a claim from the mining at `k`, when it returned `ret`. -/
def claimedOut (accs : List AccountInfo) (k : Key) : Ix → Option Nat → Nat
  | .claim, some n => if miningArg accs .claim = some k then n else 0
  | _, _ => 0

/-- Tokens paid by an event from the mining at `k`. -/
def claimedBy (env : Env) (k : Key) (s : Chain) : Event → Nat
  | .ix accs i =>
    match exec env s.now s.world accs i with
    | .ok (_, ret) => claimedOut accs k i ret
    | .error _ => 0
  | _ => 0

/-- What the mining at `k` earns by an event with the stake it has at the time (in 1/10^16 token). -/
def earnedBy (env : Env) (P k : Key) (s : Chain) (e : Event) : Nat :=
  match (s.world k).content with
  | .mining m => incomeBy env P m s e
  | _ => 0

/-- How often an event rounds down to whole tokens when bringing the mining at `k` up to date: once, and once for every lock
that has expired. -/
def roundedBy (env : Env) (k : Key) (s : Chain) : Event → Nat
  | .ix accs i =>
    match (s.world k).content with
    | .mining m =>
      if succeeded env s accs i = true ∧ refreshes i = true ∧ miningArg accs i = some k then
        expiredCount m (midnight s.now) + 1
      else 0
    | _ => 0
  | _ => 0

end Verif.Spec
