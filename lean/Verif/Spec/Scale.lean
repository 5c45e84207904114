import Verif.Spec.Filling
/-!
Vocabulary for C102: all stakes are multiplied by the same number.
-/

namespace Verif.Spec

/-- A table of expirations, with all amounts `c` times as large. -/
def timesTable (c : Nat) (l : SMap) : SMap := l.map fun e => (e.1, c * e.2)

/-- The second mining has `c` times the stake of the first, and the same data otherwise, except for the rewards. -/
def TimesStake (c : Nat) (m n : Mining) : Prop :=
  n = { m with share := c * m.share, stakeFromOthers := c * m.stakeFromOthers, diffs := timesTable c m.diffs,
               unclaimed := n.unclaimed, index := n.index }

/-- The second pool has `c` times the stake of the first, has distributed on the same days, and has the same data otherwise,
except for the rewards per unit of stake. -/
def TimesStakes (c : Nat) (p q : Pool) : Prop :=
  q = { p with totalShare := c * p.totalShare, diffs := timesTable c p.diffs, index := q.index, cumulative := q.cumulative } ∧
    q.cumulative.map (·.1) = p.cumulative.map (·.1)

/-- The same pools and minings exist in both worlds, with `c` times the stake in the second. -/
structure TimesWorld (env : Env) (c : Nat) (v w : World) : Prop where
  pools : ∀ k p, PoolAt env v k p → ∃ q, PoolAt env w k q ∧ TimesStakes c p q
  poolsBack : ∀ k q, PoolAt env w k q → ∃ p, PoolAt env v k p
  minings : ∀ k m, MiningAt env v k m → m.accountType = 2 → ∃ n, MiningAt env w k n ∧ TimesStake c m n
  miningsBack : ∀ k n, MiningAt env w k n → n.accountType = 2 → ∃ m, MiningAt env v k m ∧ m.accountType = 2

/-- The same instruction with `c` times the stake. -/
def timesIx (c : Nat) : Ix → Ix
  | .depositMining a l o d => .depositMining (c * a) l o d
  | .withdrawMining a o d => .withdrawMining (c * a) o d
  | .extendStake ol nl ts b a o d => .extendStake ol nl ts (c * b) (c * a) o d
  | .changeDelegate a d => .changeDelegate (c * a) d
  | .slash o n m e => .slash o (c * n) (c * m) e
  | .decreaseRewards o n => .decreaseRewards o (c * n)
  | i => i

/-- The same event with `c` times the stake (what other programs do may differ). -/
def TimesEvent (c : Nat) : Event → Event → Prop
  | .ix accs i, e' => e' = .ix accs (timesIx c i)
  | .tick d, e' => e' = .tick d
  | .gc k, e' => e' = .gc k
  | .ext _, e' => ∃ w, e' = .ext w

/-- The stake with which the mining at `k` takes part in a distribution of the pool at `P`; 0 for other events. -/
def stakeIn (env : Env) (P k : Key) (s : Chain) (e : Event) : Nat :=
  match (s.world k).content with
  | .mining m => takesPart env P m s e
  | _ => 0

end Verif.Spec
