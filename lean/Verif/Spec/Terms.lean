import Verif.Spec.World
/-!
Specification vocabulary for stakes: the lockup table, days, room in a table, effects on stake.
-/

namespace Verif.Spec

/-- The published lockup table: multiplier and number of days. `none` is not a lockup. -/
def terms : LockupPeriod → Option (Nat × Nat)
  | .none => none
  | .flex => some (1, 5)
  | .threeMonths => some (2, 90)
  | .sixMonths => some (4, 180)
  | .oneYear => some (6, 365)

/-- A table with at most `cap` entries can take an entry at date `e`. -/
def HasRoom (cap : Nat) (l : List (Nat × Nat)) (e : Nat) : Prop := (∃ x ∈ l, x.1 = e) ∨ l.length < cap

/-- Entries dated later than `d`. -/
def laterThan (l : List (Nat × Nat)) (d : Nat) : List (Nat × Nat) := l.filter fun e => decide (d < e.1)

/-- Amount recorded to expire on date `e`. -/
def recordedAt (l : List (Nat × Nat)) (e : Nat) : Nat := ((l.filter fun x => decide (x.1 = e)).map (·.2)).sum

/-- Weight on day `x` of `a` tokens locked with multiplier `k` until day `e`. -/
def stakeWeight (a k e x : Nat) : Int := if x < e then a * k else a

/-- Weight on day `x` of a slashed stake of `n` tokens, weight `mu`, that would have expired at `ex`. -/
def slashWeight (n mu : Nat) (ex : Option Nat) (x : Nat) : Int :=
  match ex with
  | none => mu
  | some ts => if x < midnight ts then mu else n

/-- Everything in a pool that stake operations must leave alone: budget, end of distribution, index and its history. -/
def SameBudget (p p' : Pool) : Prop :=
  p'.tokensAvailable = p.tokensAvailable ∧ p'.distributionEndsAt = p.distributionEndsAt ∧ p'.index = p.index ∧
  p'.cumulative = p.cumulative

/-- Configuration of a pool. -/
def SameConfig (p p' : Pool) : Prop :=
  p'.depositAuthority = p.depositAuthority ∧ p'.distributeAuthority = p.distributeAuthority ∧
  p'.fillAuthority = p.fillAuthority ∧ p'.rewardMint = p.rewardMint ∧ p'.bump = p.bump ∧
  p'.accountType = p.accountType

/-- Identity of a mining. -/
def SameIdentity (m m' : Mining) : Prop :=
  m'.owner = m.owner ∧ m'.rewardPool = m.rewardPool ∧ m'.bump = m.bump ∧ m'.accountType = m.accountType

/-- Nobody can sign for the all-zero address. -/
def RealSigners (accs : List AccountInfo) : Prop := ∀ a ∈ accs, a.isSigner = true → a.key ≠ 0

/-- How an operation for pool `P`, mining `M` and delegate mining `D` (`D = M`: no delegate) changes the stakes of all
pools and minings, on every day from today on.  `tot x` is added to the total of `P` on day `x` (provided `poolIf`),
`own x` to the weighted stake of `M` (provided `miningIf`), `del` to the stake delegated to `D` if `D ≠ M`; nothing else
about anybody's stake changes, nor does any pool's budget, index or configuration. -/
structure StakesChange (env : Env) (now : Nat) (w w' : World) (P M D : Key) (poolIf : Pool → Prop)
    (miningIf : Mining → Prop) (tot own : Nat → Int) (del : Int) : Prop where
  pools : ∀ k p, PoolAt env w k p → ∃ p', PoolAt env w' k p' ∧ SameBudget p p' ∧ SameConfig p p' ∧
    (k ≠ P → p' = p) ∧ (k = P → poolIf p → ∀ x, midnight now ≤ x → totalOn p' x = totalOn p x + tot x)
  minings : ∀ k m, MiningAt env w k m → ∃ m', MiningAt env w' k m' ∧ SameIdentity m m' ∧
    (k ≠ M → k ≠ D → m' = m) ∧
    (m'.stakeFromOthers : Int) = m.stakeFromOthers + (if k = D ∧ k ≠ M then del else 0) ∧
    (k = M → miningIf m → ∀ x, midnight now ≤ x → weightOn m' x = weightOn m x + own x) ∧
    (k ≠ M → ∀ x, midnight now ≤ x → weightOn m' x = weightOn m x)
  others : ∀ k, k ≠ P → k ≠ M → k ≠ D → w' k = w k

/-- `M` is the mining account of `owner` in pool `P`. -/
def IsMiningOf (env : Env) (w : World) (M owner P : Key) : Prop :=
  ∃ m p, MiningAt env w M m ∧ PoolAt env w P p ∧ m.owner = owner ∧ m.rewardPool = P ∧
    env.miningAddr owner P m.bump = some M

/-- The penalty of `n` on a table of expirations: dates stay, values only go down, by `min n (sum)` in total, and an
entry is touched only if all later ones have become 0. -/
structure Penalty (n : Nat) (l l' : List (Nat × Nat)) : Prop where
  same_dates : l'.map (·.1) = l.map (·.1)
  lowered : ∀ (i : Nat) (e e' : Nat × Nat), l[i]? = some e → l'[i]? = some e' → e'.2 ≤ e.2
  amount : total l' + min n (total l) = total l
  latest_first : ∀ (i j : Nat) (e e' f : Nat × Nat), i < j → l[i]? = some e →
    l'[i]? = some e' → e' ≠ e → l'[j]? = some f → f.2 = 0

end Verif.Spec

namespace Verif.Spec

/-- Exactly `n` tokens went from `src` to `dst`; if both are the same account, it did not change. -/
def TokensMoved (w w' : World) (src dst : Key) (n : Nat) : Prop :=
  (src = dst ∧ w' src = w src) ∨
  (src ≠ dst ∧ n ≤ balance w src ∧ balance w' src = balance w src - n ∧ balance w' dst = balance w dst + n)

end Verif.Spec
