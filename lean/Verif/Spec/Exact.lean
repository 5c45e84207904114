import Verif.Spec.Honest
import Verif.Spec.Terms
import Verif.Spec.Distribution
/-!
Specification vocabulary for the exact conditions under which operations succeed.  All conditions are about the stored
numbers before the operation; nothing here uses the methods of the model.
-/

namespace Verif.Spec

/-- Whole tokens credited at time `now` to a stake with the given expirations that has consumed the index up to `i`: for
every lock that has expired the rewards up to its date, rounded down, with the stake up to then; and the rewards since. -/
def credit (cum : List (Nat × Nat)) (now : Nat) : List (Nat × Nat) → (stake i : Nat) → Nat
  | [], stake, i => (indexBefore cum now - i) * stake / 10 ^ 16
  | (e, v) :: rest, stake, i =>
    if e ≤ midnight now then
      (indexBefore cum e - i) * stake / 10 ^ 16 + credit cum now rest (stake - v) (indexBefore cum e)
    else (indexBefore cum now - i) * stake / 10 ^ 16

/-- Whole tokens of the mining once it is up to date at `now`. -/
def due (now : Nat) (cum : List (Nat × Nat)) (m : Mining) : Nat :=
  m.unclaimed + credit cum now m.diffs (m.share + m.stakeFromOthers) m.index

/-- The mining can be brought up to date at `now` with the history `cum` of its pool: its stake is a 64-bit number, what
expires of it it has, it has not consumed more of the index than there is, and its rewards are a 64-bit number. -/
structure Refreshable (now : Nat) (cum : List (Nat × Nat)) (m : Mining) : Prop where
  stake : m.share + m.stakeFromOthers < 2 ^ 64
  backed : dueBy m.diffs (midnight now) ≤ m.share
  index : m.index ≤ indexBefore cum now
  locks : ∀ e ∈ m.diffs, e.1 ≤ midnight now → m.index ≤ indexBefore cum e.1
  rewards : due now cum m < 2 ^ 64

/-- `a` can be taken from the stake delegated to `d` (if there is a delegate) when the pool's total is `tot`. -/
def CanTake (now : Nat) (cum : List (Nat × Nat)) (tot a : Nat) (d : Option Mining) : Prop :=
  ∀ x, d = some x → a ≤ x.stakeFromOthers ∧ a ≤ tot ∧
    Refreshable now cum { x with stakeFromOthers := x.stakeFromOthers - a }

/-- `a` can be added to the stake delegated to `d` (if there is a delegate) when the pool's total is `tot`. -/
def CanGive (now : Nat) (cum : List (Nat × Nat)) (tot a : Nat) (d : Option Mining) : Prop :=
  ∀ x, d = some x → x.stakeFromOthers + a < 2 ^ 64 ∧ tot + a < 2 ^ 64 ∧
    Refreshable now cum { x with stakeFromOthers := x.stakeFromOthers + a }

/-- When `a` can be withdrawn: the staker has it today, and so has the pool, and so has the delegate. -/
structure WithdrawOk (now : Nat) (p : Pool) (m : Mining) (d : Option Mining) (a : Nat) : Prop where
  refresh : Refreshable now p.cumulative m
  own : dueBy m.diffs (midnight now) + a ≤ m.share
  pool : dueBy p.diffs (midnight now) + a ≤ p.totalShare
  delegate : CanTake now p.cumulative (p.totalShare - a - dueBy p.diffs (midnight now)) a d

/-- When `a` can be deposited for a lockup of `n` days with multiplier `k`: everything fits into 64 bits. -/
structure DepositOk (now : Nat) (p : Pool) (m : Mining) (d : Option Mining) (a k n : Nat) : Prop where
  refresh : Refreshable now p.cumulative m
  date : midnight now + 86400 * n < 2 ^ 64
  own : m.share - dueBy m.diffs (midnight now) + a * k < 2 ^ 64
  pool : p.totalShare + a * k < 2 ^ 64
  ownTable : recordedAt m.diffs (midnight now + 86400 * n) + (a * k - a) < 2 ^ 64
  poolTable : recordedAt p.diffs (midnight now + 86400 * n) + (a * k - a) < 2 ^ 64
  delegate : CanGive now p.cumulative (p.totalShare + a * k) a d

/-- When a stake of `n` tokens with weight `mu`, locked until `ex` if at all, can be slashed: it can be withdrawn, and both
tables have a lock of that day, still running and large enough. -/
structure SlashOk (now : Nat) (p : Pool) (m : Mining) (n mu : Nat) (ex : Option Nat) : Prop where
  withdraw : WithdrawOk now p m none mu
  locked : ∀ ts, ex = some ts → n ≤ mu ∧ midnight now < midnight ts ∧
    (∃ v, (midnight ts, v) ∈ m.diffs ∧ mu - n ≤ v) ∧ ∃ v, (midnight ts, v) ∈ p.diffs ∧ mu - n ≤ v

/-- When the delegate of `a` can be changed from `od` to `nd`. -/
structure RedelegateOk (now : Nat) (p : Pool) (m : Mining) (od nd : Option Mining) (a : Nat) : Prop where
  refresh : Refreshable now p.cumulative m
  take : CanTake now p.cumulative p.totalShare a od
  give : CanGive now p.cumulative (if od.isSome then p.totalShare - a else p.totalShare) a nd

/-- When rewards can be distributed: there is stake today, and the index fits (if this is the first distribution today). -/
structure DistributeOk (now : Nat) (p : Pool) : Prop where
  stake : dueBy p.diffs (midnight now) ≤ p.totalShare ∧ p.totalShare ≠ 0
  first : (∀ e ∈ p.cumulative, e.1 ≠ midnight now) → dueBy p.diffs (midnight now) < p.totalShare ∧
    p.index + 10 ^ 16 * dailyAmount p.tokensAvailable p.distributionEndsAt now /
      (p.totalShare - dueBy p.diffs (midnight now)) < 2 ^ 128

/-- What extending a stake of `b` tokens, locked with the terms `old` since `ts`, takes out of the staker's weight (`wt`) and
out of the table entry for day `x` (`cut`): the whole weighted stake if its lock is still running, which must then be
recorded; else the tokens alone. -/
inductive Unlocks (now : Nat) (m : Mining) (old : LockupPeriod) (ts b x : Nat) : (wt cut : Nat) → Prop
  | flex (h : old = .flex) : Unlocks now m old ts b x b 0
  | over {k n : Nat} (h : terms old = some (k, n)) (fits : midnight ts + 86400 * n < 2 ^ 64)
      (past : midnight ts + 86400 * n ≤ now) : Unlocks now m old ts b x b 0
  | running {k n v : Nat} (h : terms old = some (k, n)) (locked : old ≠ .flex) (fits : midnight ts + 86400 * n < 2 ^ 64)
      (future : now < midnight ts + 86400 * n) (recorded : (midnight ts + 86400 * n, v) ∈ m.diffs) (enough : b * k - b ≤ v) :
      Unlocks now m old ts b x (b * k) (if midnight ts + 86400 * n = x then b * k - b else 0)

/-- When a stake of `b` tokens can be extended to `n` days with multiplier `k`, adding `a` tokens: the old stake can be taken
out and the new one be put in.  (The amount `wt` taken out and the amount `cut` off the table are given by `Unlocks`.) -/
structure ExtendOk (now : Nat) (p : Pool) (m : Mining) (d : Option Mining) (b a k n wt cut : Nat) : Prop where
  refresh : Refreshable now p.cumulative m
  amount : b + a < 2 ^ 64
  own : dueBy m.diffs (midnight now) + wt ≤ m.share
  pool : wt ≤ p.totalShare
  take : CanTake now p.cumulative (p.totalShare - wt) b d
  date : midnight now + 86400 * n < 2 ^ 64
  newOwn : m.share - dueBy m.diffs (midnight now) - wt + (b + a) * k < 2 ^ 64
  newPool : p.totalShare - wt - (if d.isSome then b else 0) + (b + a) * k < 2 ^ 64
  ownTable : recordedAt m.diffs (midnight now + 86400 * n) - cut + ((b + a) * k - (b + a)) < 2 ^ 64
  poolTable : recordedAt p.diffs (midnight now + 86400 * n) + ((b + a) * k - (b + a)) < 2 ^ 64
  give : ∀ x, d = some x → x.share - dueBy x.diffs (midnight now) + x.stakeFromOthers + a < 2 ^ 64 ∧
    p.totalShare - wt + (b + a) * k + a < 2 ^ 64

/-- When a penalty of `n` can be imposed: the staker's stored weight covers it. -/
def DecreaseOk (m : Mining) (n : Nat) : Prop := n ≤ m.share

/-- When the rewards can be claimed: they can be computed and the vault has them. -/
structure ClaimOk (now : Nat) (p : Pool) (m : Mining) (t : TokenAcc) : Prop where
  refresh : Refreshable now p.cumulative m
  funds : due now p.cumulative m ≤ t.amount

/-- When the mining can be closed: no rewards are left and nobody delegates to it. -/
structure CloseOk (now : Nat) (p : Pool) (m : Mining) : Prop where
  refresh : Refreshable now p.cumulative m
  rewards : due now p.cumulative m = 0
  delegated : m.stakeFromOthers = 0

/-- When the vault can be filled with `r` tokens to be distributed until `e`. -/
structure FillOk (now : Nat) (p : Pool) (t : TokenAcc) (r e : Nat) : Prop where
  positive : 0 < r
  funds : r ≤ t.amount
  future : midnight now ≤ midnight e
  later : p.distributionEndsAt ≤ midnight e
  fits : p.tokensAvailable + r < 2 ^ 64

/-- A penalty as it should be imposed: `A P M` are the pool's deposit authority (who signs), the pool, and the staker's
mining of this pool; `owner` is the staker. -/
structure DecreaseReady (env : Env) (w : World) (accs : List AccountInfo) (A P M : AccountInfo)
    (rest : List AccountInfo) (p : Pool) (m : Mining) (owner : Key) : Prop where
  accs_eq : accs = A :: P :: M :: rest
  pool : PoolAt env w P.key p
  mining : Member env w P.key M.key m
  owner : owner = m.owner
  authority : A.key = p.depositAuthority ∧ A.isSigner = true
  writable : ∀ a ∈ accs, a.key = M.key → a.isWritable = true

end Verif.Spec
