import Verif.Spec.Life
/-!
Vocabulary for what a mining has earned by its own stake (C127).
-/

namespace Verif.Spec

/-- What a mining is owed for its own stake, in 1/10^16 token: the rewards credited to it, and for every recorded distribution
it has not been credited for yet, the index growth times the own stake of that day (without the stake delegated to it). -/
def ownOwed (m : Mining) (l : List (Nat × Nat)) : Nat :=
  10 ^ 16 * m.unclaimed + earned (fun d => m.share - dueBy m.diffs d) m.index 0 l

/-- An instruction is executed for the mining at `k`, or with it as a delegate. -/
def names (accs : List AccountInfo) (i : Ix) (k : Key) : Bool :=
  decide (miningArg accs i = some k ∨ delegateArg accs i = some k ∨ oldDelegateArg accs i = some k)

/-- How often an instruction may round down the rewards of the mining `m` at `k`: once, and once for every lock of it that
has expired; never, if it does not name the mining. -/
def roundings (accs : List AccountInfo) (i : Ix) (k : Key) (now : Nat) (m : Mining) : Nat :=
  if names accs i k = true then expiredCount m (midnight now) + 1 else 0

/-- … an event … -/
def roundingsBy (env : Env) (k : Key) (s : Chain) : Event → Nat
  | .ix accs i =>
    match (s.world k).content with
    | .mining m => if succeeded env s accs i = true then roundings accs i k s.now m else 0
    | _ => 0
  | _ => 0

/-- An instruction that names the mining at `k` is not a penalty on its rewards, names the pool `P` of the mining, and is not
executed in the very second of midnight for which a distribution is recorded. -/
def Regular (env : Env) (P k : Key) (now : Nat) (w : World) (accs : List AccountInfo) (i : Ix) : Prop :=
  names accs i k = true → (∀ o n, i ≠ .decreaseRewards o n) ∧ poolArg accs i = some P ∧
    ∀ p, PoolAt env w P p → Settled p.cumulative now

/-- … an event … -/
def RegularEvent (env : Env) (P k : Key) (s : Chain) (e : Event) : Prop :=
  CleanEvent env s e ∧ ∀ accs i, e = .ix accs i → Regular env P k s.now s.world accs i

end Verif.Spec
