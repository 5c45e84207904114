import Verif.Model.Arith
import Verif.Model.SMap
/-!
Account state and the methods of state/mining.rs and state/reward_pool.rs.

`&mut self` becomes a returned value.  The clock (`Clock::get().unwrap().unix_timestamp as u64`, mining.rs:57,
reward_pool.rs:139, 277, utils.rs:288-292) is the parameter `now`.
A failing method makes the whole transaction fail, so the half-updated state of an error path is not represented.
-/

namespace Verif

/-- Addresses.  A `Pubkey` is 32 bytes; the model uses its value as a number. -/
abbrev Key := Nat

/-- Capacities of the three tree types, state/mod.rs:13-15 and 19-21. -/
structure Caps where
  mining : Nat
  pool : Nat
  index : Nat
  deriving DecidableEq, Repr

/-- The capacities in the source, state/mod.rs:13-15. -/
def Caps.deployed : Caps := { mining := 50, pool := 365, index := 1095 }

/-- `Mining` (mining.rs:115-141) together with its tree (`WrappedMining`, mining.rs:20-26).
`accountType` is `data[0]`; the six unused bytes of `data` are omitted. -/
structure Mining where
  rewardPool : Key
  owner : Key
  rewardMint : Key
  index : Nat
  share : Nat
  unclaimed : Nat
  stakeFromOthers : Nat
  bump : Nat
  accountType : Nat
  diffs : SMap
  deriving DecidableEq, Repr

/-- `RewardPool` (reward_pool.rs:426-456) together with its trees (`WrappedRewardPool`, reward_pool.rs:23-32).
`accountType` is `data[0]`; the six unused bytes of `data` are omitted. -/
structure Pool where
  depositAuthority : Key
  distributeAuthority : Key
  fillAuthority : Key
  rewardMint : Key
  index : Nat
  totalShare : Nat
  distributionEndsAt : Nat
  tokensAvailable : Nat
  bump : Nat
  accountType : Nat
  diffs : SMap
  cumulative : SMap
  deriving DecidableEq, Repr

namespace Mining

/-- A zeroed account read as a mining (an all-zero tree is empty). -/
def zero : Mining :=
  { rewardPool := 0, owner := 0, rewardMint := 0, index := 0, share := 0, unclaimed := 0,
    stakeFromOthers := 0, bump := 0, accountType := 0, diffs := [] }

/-- `Mining::initialize` (mining.rs:150-163) followed by `weighted_stake_diffs.initialize()`
(initialize_mining.rs:45-47). -/
def init (rewardPool owner : Key) (bump : Nat) : Mining :=
  { zero with rewardPool := rewardPool, owner := owner, bump := bump, accountType := 2 }

/-- `Mining::update_index`, mining.rs:208-233; returns the new `(unclaimed_rewards, index_with_precision)`. -/
def updateIndex (cumulative : SMap) (date totalShare unclaimed index : Nat) : Res (Nat × Nat) := do
  let vaultIndexForDate := (cumulative.findMaxLt date).getD 0
  let d ← safeSub vaultIndexForDate index
  let p ← safeMul128 d totalShare
  let q ← safeDiv p PRECISION
  let rewards ← u64TryFrom q
  let unclaimed' ← if rewards > 0 then safeAdd64 unclaimed rewards else pure unclaimed
  pure (unclaimed', vaultIndexForDate)

/-- State of the loop in `Mining::consume_old_modifiers`. -/
structure Consume where
  totalShare : Nat
  unclaimed : Nat
  index : Nat
  processed : List Nat
  deriving DecidableEq, Repr

/-- The loop over `weighted_stake_diffs.iter()`, mining.rs:183-198. -/
def consumeLoop (cumulative : SMap) (beginningOfTheDay : Nat) : List (Nat × Nat) → Consume → Res Consume
  | [], s => .ok s
  | (date, modifierDiff) :: rest, s =>
    if date > beginningOfTheDay then .ok s
    else do
      let (unclaimed, index) ← updateIndex cumulative date s.totalShare s.unclaimed s.index
      let totalShare ← safeSub s.totalShare modifierDiff
      consumeLoop cumulative beginningOfTheDay rest
        { totalShare := totalShare, unclaimed := unclaimed, index := index, processed := s.processed ++ [date] }

/-- `Mining::consume_old_modifiers`, mining.rs:175-205; returns the updated mining and the new total share. -/
def consumeOldModifiers (m : Mining) (beginningOfTheDay totalShare : Nat) (cumulative : SMap) :
    Res (Mining × Nat) := do
  let s ← consumeLoop cumulative beginningOfTheDay m.diffs
    { totalShare := totalShare, unclaimed := m.unclaimed, index := m.index, processed := [] }
  pure ({ m with unclaimed := s.unclaimed, index := s.index, diffs := s.processed.foldl SMap.erase m.diffs },
        s.totalShare)

/-- `WrappedMining::refresh_rewards`, mining.rs:56-77. -/
def refreshRewards (now : Nat) (cumulative : SMap) (m : Mining) : Res Mining := do
  let share ← safeAdd64 m.share m.stakeFromOthers
  let (m, share) ← m.consumeOldModifiers (bod now) share cumulative
  let (unclaimed, index) ← updateIndex cumulative now share m.unclaimed m.index
  let share ← safeSub share m.stakeFromOthers
  pure { m with unclaimed := unclaimed, index := index, share := share }

/-- The loop of `decrease_rewards`, mining.rs:98-107, over the modifiers in reverse (latest first) order. -/
def decreaseLoop : Nat → List (Nat × Nat) → List (Nat × Nat)
  | _, [] => []
  | n, (date, diff) :: rest =>
    if diff ≥ n then (date, diff - n) :: rest
    else (date, 0) :: decreaseLoop (n - diff) rest

/-- `WrappedMining::decrease_rewards`, mining.rs:80-110. The two `safe_sub` inside the loop are guarded by the
comparison and cannot fail, so the loop is a total function. -/
def decreaseRewards (m : Mining) (n : Nat) : Res Mining :=
  if n = 0 then .ok m
  else do
    ensure (¬ n > m.share) (.custom .decreaseRewardsTooBig)
    let share ← safeSub m.share n
    pure { m with share := share, diffs := (decreaseLoop n m.diffs.reverse).reverse }

/-- `Mining::claim`, mining.rs:170-172. -/
def claim (m : Mining) : Mining := { m with unclaimed := 0 }

end Mining

namespace Pool

/-- A zeroed account read as a pool. -/
def zero : Pool :=
  { depositAuthority := 0, distributeAuthority := 0, fillAuthority := 0, rewardMint := 0, index := 0,
    totalShare := 0, distributionEndsAt := 0, tokensAvailable := 0, bump := 0, accountType := 0,
    diffs := [], cumulative := [] }

/-- `RewardPool::initialize` (reward_pool.rs:464-483) and the initialization of both trees
(initialize_pool.rs:62-72). -/
def init (bump : Nat) (depositAuthority distributeAuthority fillAuthority rewardMint : Key) : Pool :=
  { zero with bump := bump, depositAuthority := depositAuthority, distributeAuthority := distributeAuthority,
              fillAuthority := fillAuthority, rewardMint := rewardMint, accountType := 1 }

/-- `<RewardPool as IsInitialized>::is_initialized`, reward_pool.rs:520-524. -/
def isInitialized (p : Pool) : Bool := p.accountType == 1

/-- `RewardPool::rewards_to_distribute`, reward_pool.rs:487-503. -/
def rewardsToDistribute (now : Nat) (p : Pool) : Res Nat :=
  let daysLeft := (p.distributionEndsAt - now) / DAY   -- `Nat` subtraction is `saturating_sub`
  if daysLeft = 0 then .ok p.tokensAvailable
  else do
    let a ← safeMul128 p.tokensAvailable PRECISION
    let b ← safeDiv a daysLeft
    let c ← safeDiv b PRECISION
    u64TryFrom c

/-- The loop of `WrappedRewardPool::consume_old_modifiers`, reward_pool.rs:99-106:
returns the remaining share and the processed dates. -/
def consumeLoop (beginningOfTheDay : Nat) : List (Nat × Nat) → Nat → List Nat → Res (Nat × List Nat)
  | [], share, processed => .ok (share, processed)
  | (date, modifier) :: rest, share, processed =>
    if date > beginningOfTheDay then .ok (share, processed)
    else do
      let share ← safeSub share modifier
      consumeLoop beginningOfTheDay rest share (processed ++ [date])

/-- `WrappedRewardPool::consume_old_modifiers`, reward_pool.rs:93-111; the callers (reward_pool.rs:142-143 and
279-280) store the returned share in `total_share`, which is done here. -/
def consumeOldModifiers (p : Pool) (beginningOfTheDay : Nat) : Res Pool := do
  let (share, processed) ← consumeLoop beginningOfTheDay p.diffs p.totalShare []
  pure { p with totalShare := share, diffs := processed.foldl SMap.erase p.diffs }

/-- `WrappedRewardPool::update_index`, reward_pool.rs:114-131. -/
def updateIndex (caps : Caps) (p : Pool) (rewards totalShare date : Nat) : Res Pool := do
  let a ← safeMul128 PRECISION rewards
  let idx ← safeDiv a totalShare
  let latest ← safeAdd128 p.index idx
  pure { p with cumulative := p.cumulative.insert caps.index date latest, index := latest }

/-- `WrappedRewardPool::distribute`, reward_pool.rs:134-162. -/
def distribute (caps : Caps) (now : Nat) (p : Pool) (rewards : Nat) : Res Pool := do
  ensure (¬ p.totalShare = 0) (.custom .rewardsNoDeposits)
  let p ← p.consumeOldModifiers (bod now)
  if p.cumulative.contains (bod now) = true then pure p
  else do
    let p ← p.updateIndex caps rewards p.totalShare (bod now)
    let avail ← safeSub p.tokensAvailable rewards
    pure { p with tokensAvailable := avail }

/-- Body of an optional-delegate block: `f` on the delegate and the pool if there is a delegate. -/
def withDelegate (p : Pool) (d : Option Mining) (f : Pool → Mining → Res (Pool × Mining)) :
    Res (Pool × Option Mining) :=
  match d with
  | none => .ok (p, none)
  | some m => do
    let (p, m) ← f p m
    pure (p, some m)

/-- Take `amount` of delegated stake away: reward_pool.rs:177-182, 286-290 and 400-405. -/
def delegateSub (now amount : Nat) (p : Pool) (d : Mining) : Res (Pool × Mining) := do
  let sfo ← safeSub d.stakeFromOthers amount
  let total ← safeSub p.totalShare amount
  let d ← ({ d with stakeFromOthers := sfo } : Mining).refreshRewards now p.cumulative
  pure ({ p with totalShare := total }, d)

/-- Add `amount` of delegated stake: reward_pool.rs:189-194 and 255-259. -/
def delegateAdd (now amount : Nat) (p : Pool) (d : Mining) : Res (Pool × Mining) := do
  let sfo ← safeAdd64 d.stakeFromOthers amount
  let total ← safeAdd64 p.totalShare amount
  let d ← ({ d with stakeFromOthers := sfo } : Mining).refreshRewards now p.cumulative
  pure ({ p with totalShare := total }, d)

/-- `WrappedRewardPool::change_delegate`, reward_pool.rs:164-198.
Returns pool, mining, new delegate, old delegate. -/
def changeDelegate (now : Nat) (p : Pool) (m : Mining) (newD oldD : Option Mining) (stakedAmount : Nat) :
    Res (Pool × Mining × Option Mining × Option Mining) := do
  let m ← m.refreshRewards now p.cumulative
  let (p, oldD) ← p.withDelegate oldD (delegateSub now stakedAmount)
  let (p, newD) ← p.withDelegate newD (delegateAdd now stakedAmount)
  pure (p, m, newD, oldD)

/-- `WrappedRewardPool::deposit`, reward_pool.rs:201-263. -/
def deposit (caps : Caps) (now : Nat) (p : Pool) (m : Mining) (amount : Nat) (period : LockupPeriod)
    (d : Option Mining) : Res (Pool × Mining × Option Mining) := do
  let m ← m.refreshRewards now p.cumulative
  let weightedStake ← safeMul64 amount period.multiplier
  let flexStake ← safeMul64 amount LockupPeriod.flex.multiplier
  let weightedStakeDiff ← safeSub weightedStake flexStake
  let total ← safeAdd64 p.totalShare weightedStake
  let share ← safeAdd64 m.share weightedStake
  let expiration ← period.endTimestamp now
  let modifier := (p.diffs.get expiration).getD 0
  let modifier ← safeAdd64 modifier weightedStakeDiff
  let p := { p with totalShare := total, diffs := p.diffs.insert caps.pool expiration modifier }
  let mdiffs ← match m.diffs.get expiration with
    | some old => do
        let v ← safeAdd64 old weightedStakeDiff
        pure (m.diffs.set expiration v)
    | none => pure (m.diffs.insert caps.mining expiration weightedStakeDiff)
  let m := { m with share := share, diffs := mdiffs }
  let (p, d) ← p.withDelegate d (delegateAdd now amount)
  pure (p, m, d)

/-- `WrappedRewardPool::withdraw`, reward_pool.rs:266-294. -/
def withdraw (now : Nat) (p : Pool) (m : Mining) (amount : Nat) (d : Option Mining) :
    Res (Pool × Mining × Option Mining) := do
  let m ← m.refreshRewards now p.cumulative
  let total ← safeSub p.totalShare amount
  let share ← safeSub m.share amount
  let p ← ({ p with totalShare := total } : Pool).consumeOldModifiers (bod now)
  let (p, d) ← p.withDelegate d (delegateSub now amount)
  pure (p, { m with share := share }, d)

/-- `RewardPool::modify_weighted_stake_diffs` (reward_pool.rs:505-517); also the two `get_mut` blocks of `slash`
(reward_pool.rs:313-317 and 319-323), which do the same on the mining's and the pool's tree. -/
def modifyDiffs (diffs : SMap) (timestamp diff : Nat) : Res SMap :=
  match diffs.get timestamp with
  | none => .error (.custom .noWeightedStakeModifiersAtADate)
  | some modifier => do
    let v ← safeSub modifier diff
    pure (diffs.set timestamp v)

/-- `WrappedRewardPool::slash`, reward_pool.rs:297-327. -/
def slash (now : Nat) (p : Pool) (m : Mining) (native multiplied : Nat) (expiration : Option Nat) :
    Res (Pool × Mining) := do
  let (p, m, _) ← p.withdraw now m multiplied none
  match expiration with
  | none => pure (p, m)
  | some ts => do
    let date := bod ts
    let diff ← safeSub multiplied native
    let mdiffs ← modifyDiffs m.diffs date diff
    let pdiffs ← modifyDiffs p.diffs date diff
    pure ({ p with diffs := pdiffs }, { m with diffs := mdiffs })

/-- `WrappedRewardPool::extend`, reward_pool.rs:331-420. -/
def extend (caps : Caps) (now : Nat) (p : Pool) (m : Mining) (oldPeriod newPeriod : LockupPeriod)
    (depositStartTs baseAmount additionalAmount : Nat) (d : Option Mining) :
    Res (Pool × Mining × Option Mining) := do
  let m ← m.refreshRewards now p.cumulative
  let oldExpiration ← if oldPeriod = LockupPeriod.flex then pure 0 else oldPeriod.endTimestamp depositStartTs
  let flexStake ← safeMul64 baseAmount LockupPeriod.flex.multiplier
  let (p, m) ←
    if now < oldExpiration then do
      let weighted ← safeMul64 baseAmount oldPeriod.multiplier
      let diff ← safeSub weighted flexStake
      let mdiffs ← modifyDiffs m.diffs oldExpiration diff
      let share ← safeSub m.share weighted
      let total ← safeSub p.totalShare weighted
      pure (({ p with totalShare := total } : Pool), ({ m with diffs := mdiffs, share := share } : Mining))
    else do
      let share ← safeSub m.share flexStake
      let total ← safeSub p.totalShare flexStake
      pure (({ p with totalShare := total } : Pool), ({ m with share := share } : Mining))
  let amountToRestake ← safeAdd64 baseAmount additionalAmount
  let (p, d) ← p.withDelegate d (delegateSub now baseAmount)
  p.deposit caps now m amountToRestake newPeriod d

end Pool

end Verif
