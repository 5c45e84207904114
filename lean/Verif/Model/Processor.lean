import Verif.Model.Runtime
/-!
The twelve instruction processors (instructions/*.rs), the dispatcher (instructions/mod.rs:30-150), transactions and
histories.
-/

namespace Verif

/-- `RewardsInstruction`, instruction.rs:16-169. -/
inductive Ix
  | initializePool (fillAuthority distributeAuthority : Key)
  | fillVault (rewards distributionEndsAt : Nat)
  | initializeMining (miningOwner : Key)
  | depositMining (amount : Nat) (lockupPeriod : LockupPeriod) (miningOwner delegate : Key)
  | withdrawMining (amount : Nat) (miningOwner delegate : Key)
  | claim
  | extendStake (oldPeriod newPeriod : LockupPeriod) (depositStartTs baseAmount additionalAmount : Nat)
      (miningOwner delegate : Key)
  | distributeRewards
  | closeMining
  | changeDelegate (stakedAmount : Nat) (newDelegate : Key)
  | slash (miningOwner : Key) (native multiplied : Nat) (stakeExpirationDate : Option Nat)
  | decreaseRewards (miningOwner : Key) (number : Nat)
  deriving DecidableEq, Repr

section
variable (env : Env)

/-- `assert_and_get_pool_and_mining`, asserts.rs:101-140 (checks in source order). -/
def getPoolAndMining (w : World) (miningOwner : Key) (mining rewardPool depositAuthority : AccountInfo) :
    Res (Pool × Mining) := do
  let m ← loadMining env (w mining.key)
  let p ← loadPool env (w rewardPool.key)
  let pk ← okOr (env.miningAddr miningOwner rewardPool.key m.bump) .invalidSeeds
  assertKey mining.key pk
  assertKey depositAuthority.key p.depositAuthority
  assertKey rewardPool.key m.rewardPool
  ensure (miningOwner = m.owner) .invalidArgument
  pure (p, m)

/-- `verify_delegate_mining_address`, utils.rs:121-142.  `data.borrow()` panics if the account is the mutably borrowed
pool account. -/
def verifyDelegate (w : World) (delegateMining : AccountInfo) (delegate : Key) (rewardPool : Key) : Res Unit := do
  ensure (delegateMining.key ≠ rewardPool) .panic
  let m ← loadMining env (w delegateMining.key)
  let pk ← okOr (env.miningAddr delegate rewardPool m.bump) (.custom .derivationError)
  ensure (delegateMining.key = pk) (.custom .invalidMining)

/-- `get_delegate_mining` (utils.rs:109-119) followed by the address check and the load of the delegate's data, as in
deposit_mining.rs:35-38, withdraw_mining.rs:36-39, extend_stake.rs:39-43 and change_delegate.rs:40-48;
`none` = the delegate is the mining itself. -/
def loadDelegate (w : World) (delegateMining mining : AccountInfo) (delegate rewardPool : Key) :
    Res (Option Mining) :=
  if mining.key ≠ delegateMining.key then do
    verifyDelegate env w delegateMining delegate rewardPool
    let m ← loadMining env (w delegateMining.key)
    pure (some m)
  else pure none

/-- The old delegate of change_delegate.rs:50 and reward_pool.rs:173-175: no address check at all; `borrow_mut` panics
if it is the pool account. -/
def loadOldDelegate (w : World) (delegateMining mining : AccountInfo) (rewardPool : Key) : Res (Option Mining) :=
  if mining.key ≠ delegateMining.key then do
    ensure (delegateMining.key ≠ rewardPool) .panic
    let m ← loadMining env (w delegateMining.key)
    pure (some m)
  else pure none

/-- Write a mining back to its account. -/
def putMining (w : World) (k : Key) (m : Mining) : World := w.set k (storeMining env (w k) m)

/-- Write a pool back to its account. -/
def putPool (w : World) (k : Key) (p : Pool) : World := w.set k (storePool (w k) p)

/-- Write an optional delegate back. -/
def putDelegate (w : World) (k : Key) : Option Mining → World
  | none => w
  | some m => putMining env w k m

/-- `process_initialize_pool`, instructions/initialize_pool.rs:13-75. -/
def processInitializePool (w : World) (accs : List AccountInfo) (fillAuthority distributeAuthority : Key) :
    Res World := do
  let (rewardPool, accs) ← nextWithOwner w env.programId accs
  let (rewardMint, accs) ← nextWithOwner w env.tokenProgram accs
  let (vault, accs) ← nextUninitialized w accs
  let (payer, accs) ← nextSigner accs
  let (depositAuthority, accs) ← nextSigner accs
  let (rent, accs) ← nextWithKey env.rentSysvar accs
  let (_tokenProgram, accs) ← nextWithKey env.tokenProgram accs
  let (_systemProgram, _) ← nextWithKey env.systemProgram accs
  ensure ((w rewardPool.key).len = POOL_LEN) .invalidArgument
  let p ← loadPool env (w rewardPool.key)
  ensure (¬ p.isInitialized = true) (.custom .alreadyInitialized)
  let (vaultKey, bump) ← okOr (env.findVault rewardPool.key rewardMint.key) .panic
  assertKey vault.key vaultKey
  -- the pool data is mutably borrowed during both calls
  ensure (payer.key ≠ rewardPool.key ∧ vault.key ≠ rewardPool.key) .accountBorrowFailed
  let w ← createAccount env w payer vault TOKEN_LEN env.tokenProgram
  ensure (rewardMint.key ≠ rewardPool.key ∧ depositAuthority.key ≠ rewardPool.key ∧ rent.key ≠ rewardPool.key)
    .accountBorrowFailed
  let w ← initializeTokenAccount env w vault.key rewardMint.key depositAuthority.key
  pure (putPool w rewardPool.key
    (Pool.init bump depositAuthority.key distributeAuthority fillAuthority rewardMint.key))

/-- `process_fill_vault`, instructions/fill_vault.rs:11-81. -/
def processFillVault (now : Nat) (w : World) (accs : List AccountInfo) (rewards distributionEndsAt : Nat) :
    Res World := do
  let (rewardPool, accs) ← nextWithOwner w env.programId accs
  let (rewardMint, accs) ← nextWithOwner w env.tokenProgram accs
  let (vault, accs) ← nextWithOwner w env.tokenProgram accs
  let (fillAuthority, accs) ← nextSigner accs
  let (source, accs) ← nextWithOwner w env.tokenProgram accs
  let (_tokenProgram, _) ← nextWithKey env.tokenProgram accs
  ensure (¬ rewards = 0) (.custom .rewardsMustBeGreaterThanZero)
  let p ← loadPool env (w rewardPool.key)
  assertKey fillAuthority.key p.fillAuthority
  let vaultKey ← okOr (env.vaultAddr rewardPool.key rewardMint.key p.bump) .invalidSeeds
  assertKey vault.key vaultKey
  ensure (¬ bod distributionEndsAt < bod now) (.custom .distributionInThePast)
  let daysDiff ← safeSub (bod distributionEndsAt) p.distributionEndsAt
  let endsAt ← safeAdd64 p.distributionEndsAt daysDiff
  let avail ← safeAdd64 p.tokensAvailable rewards
  let w := putPool w rewardPool.key { p with distributionEndsAt := endsAt, tokensAvailable := avail }
  -- the pool data is still mutably borrowed during the transfer
  ensure (source.key ≠ rewardPool.key ∧ vault.key ≠ rewardPool.key ∧ fillAuthority.key ≠ rewardPool.key)
    .accountBorrowFailed
  splTransfer env w source vault fillAuthority rewards

/-- `process_initialize_mining`, instructions/initialize_mining.rs:11-50. -/
def processInitializeMining (w : World) (accs : List AccountInfo) (miningOwner : Key) : Res World := do
  let (rewardPool, accs) ← nextWithOwner w env.programId accs
  let (mining, accs) ← nextUninitialized w accs
  let (payer, accs) ← nextSigner accs
  let (_systemProgram, _) ← nextWithKey env.systemProgram accs
  let (key, bump) ← okOr (env.findMining miningOwner rewardPool.key) .panic
  assertKey mining.key key
  let w ← createAccount env w payer mining MINING_LEN env.programId
  pure (putMining env w mining.key (Mining.init rewardPool.key miningOwner bump))

/-- `process_deposit_mining`, instructions/deposit_mining.rs:7-43. -/
def processDepositMining (now : Nat) (w : World) (accs : List AccountInfo) (amount : Nat) (period : LockupPeriod)
    (miningOwner delegate : Key) : Res World := do
  let (rewardPool, accs) ← nextWithOwner w env.programId accs
  let (mining, accs) ← nextWithOwner w env.programId accs
  let (depositAuthority, accs) ← nextSigner accs
  let (delegateMining, _) ← nextWithOwner w env.programId accs
  ensure (mining.key ≠ rewardPool.key) .panic
  let (p, m) ← getPoolAndMining env w miningOwner mining rewardPool depositAuthority
  let d ← loadDelegate env w delegateMining mining delegate rewardPool.key
  let (p, m, d) ← p.deposit env.caps now m amount period d
  pure (putDelegate env (putMining env (putPool w rewardPool.key p) mining.key m) delegateMining.key d)

/-- `process_withdraw_mining`, instructions/withdraw_mining.rs:9-44. -/
def processWithdrawMining (now : Nat) (w : World) (accs : List AccountInfo) (amount : Nat)
    (miningOwner delegate : Key) : Res World := do
  let (rewardPool, accs) ← nextWithOwner w env.programId accs
  let (mining, accs) ← nextWithOwner w env.programId accs
  let (depositAuthority, accs) ← nextSigner accs
  let (delegateMining, _) ← nextWithOwner w env.programId accs
  ensure (mining.key ≠ rewardPool.key) .panic
  let (p, m) ← getPoolAndMining env w miningOwner mining rewardPool depositAuthority
  let d ← loadDelegate env w delegateMining mining delegate rewardPool.key
  let (p, m, d) ← p.withdraw now m amount d
  pure (putDelegate env (putMining env (putPool w rewardPool.key p) mining.key m) delegateMining.key d)

/-- `process_claim`, instructions/claim.rs:13-84; also returns the amount written as return data (claim.rs:79-81). -/
def processClaim (now : Nat) (w : World) (accs : List AccountInfo) : Res (World × Nat) := do
  let (rewardPool, accs) ← nextWithOwner w env.programId accs
  let (rewardMint, accs) ← nextWithOwner w env.tokenProgram accs
  let (vault, accs) ← nextWithOwner w env.tokenProgram accs
  let (mining, accs) ← nextWithOwner w env.programId accs
  let (miningOwner, accs) ← nextSigner accs
  let (depositAuthority, accs) ← nextSigner accs
  let (userToken, accs) ← nextWithOwner w env.tokenProgram accs
  let (_tokenProgram, _) ← nextWithKey env.tokenProgram accs
  let ut ← unpackToken (w userToken.key)
  assertKey miningOwner.key ut.owner
  let p ← loadPool env (w rewardPool.key)
  assertKey depositAuthority.key p.depositAuthority
  ensure (mining.key ≠ rewardPool.key) .panic
  let m ← loadMining env (w mining.key)
  assertKey miningOwner.key m.owner
  assertKey rewardPool.key m.rewardPool
  let vaultKey ← okOr (env.vaultAddr rewardPool.key rewardMint.key p.bump) .invalidSeeds
  assertKey vault.key vaultKey
  let m ← m.refreshRewards now p.cumulative
  let amount := m.unclaimed
  let w := putMining env w mining.key m.claim
  let w ← if amount > 0 then splTransfer env w vault userToken depositAuthority amount else pure w
  pure (w, amount)

/-- `process_extend_stake`, instructions/extend_stake.rs:8-56. -/
def processExtendStake (now : Nat) (w : World) (accs : List AccountInfo) (oldPeriod newPeriod : LockupPeriod)
    (depositStartTs baseAmount additionalAmount : Nat) (miningOwner delegate : Key) : Res World := do
  let (rewardPool, accs) ← nextWithOwner w env.programId accs
  let (mining, accs) ← nextWithOwner w env.programId accs
  let (depositAuthority, accs) ← nextSigner accs
  let (delegateMining, _) ← nextWithOwner w env.programId accs
  ensure (mining.key ≠ rewardPool.key) .panic
  let (p, m) ← getPoolAndMining env w miningOwner mining rewardPool depositAuthority
  let d ← loadDelegate env w delegateMining mining delegate rewardPool.key
  let (p, m, d) ← p.extend env.caps now m oldPeriod newPeriod depositStartTs baseAmount additionalAmount d
  pure (putDelegate env (putMining env (putPool w rewardPool.key p) mining.key m) delegateMining.key d)

/-- `process_distribute_rewards`, instructions/distribute_rewards.rs:5-25. -/
def processDistributeRewards (now : Nat) (w : World) (accs : List AccountInfo) : Res World := do
  let (rewardPool, accs) ← nextWithOwner w env.programId accs
  let (distributeAuthority, _) ← nextSigner accs
  let p ← loadPool env (w rewardPool.key)
  let rewards ← p.rewardsToDistribute now
  assertKey distributeAuthority.key p.distributeAuthority
  let p ← p.distribute env.caps now rewards
  pure (putPool w rewardPool.key p)

/-- `process_close_mining`, instructions/close_mining.rs:11-55. -/
def processCloseMining (now : Nat) (w : World) (accs : List AccountInfo) : Res World := do
  let (mining, accs) ← nextWithOwner w env.programId accs
  let (miningOwner, accs) ← nextSigner accs
  let (target, accs) ← nextWithOwner w env.systemProgram accs
  let (depositAuthority, accs) ← nextSigner accs
  let (rewardPool, _) ← nextWithOwner w env.programId accs
  let p ← loadPool env (w rewardPool.key)
  assertKey depositAuthority.key p.depositAuthority
  ensure (mining.key ≠ rewardPool.key) .panic
  let m ← loadMining env (w mining.key)
  assertKey miningOwner.key m.owner
  let m ← m.refreshRewards now p.cumulative
  ensure (¬ m.stakeFromOthers > 0) (.custom .stakeFromOthersMustBeZero)
  ensure (m.unclaimed = 0) (.custom .rewardsMustBeClaimed)
  let lamports ← safeAdd64 (w target.key).lamports (w mining.key).lamports
  let w := w.set target.key { w target.key with lamports := lamports }
  pure (w.set mining.key { w mining.key with lamports := 0, content := .zero })

/-- `process_change_delegate`, instructions/change_delegate.rs:8-60. -/
def processChangeDelegate (now : Nat) (w : World) (accs : List AccountInfo) (stakedAmount : Nat)
    (newDelegate : Key) : Res World := do
  let (rewardPool, accs) ← nextWithOwner w env.programId accs
  let (mining, accs) ← nextWithOwner w env.programId accs
  let (depositAuthority, accs) ← nextSigner accs
  let (miningOwner, accs) ← nextSigner accs
  let (oldDelegateMining, accs) ← nextWithOwner w env.programId accs
  let (newDelegateMining, _) ← nextWithOwner w env.programId accs
  ensure (¬ newDelegateMining.key = oldDelegateMining.key) (.custom .delegatesAreTheSame)
  ensure (mining.key ≠ rewardPool.key) .panic
  let (p, m) ← getPoolAndMining env w miningOwner.key mining rewardPool depositAuthority
  let newD ← loadDelegate env w newDelegateMining mining newDelegate rewardPool.key
  -- the mining is refreshed (reward_pool.rs:171, again in `changeDelegate`) before the old delegate is read
  let _ ← m.refreshRewards now p.cumulative
  let oldD ← loadOldDelegate env w oldDelegateMining mining rewardPool.key
  let (p, m, newD, oldD) ← p.changeDelegate now m newD oldD stakedAmount
  let w := putMining env (putPool w rewardPool.key p) mining.key m
  pure (putDelegate env (putDelegate env w oldDelegateMining.key oldD) newDelegateMining.key newD)

/-- `process_slash`, instructions/penalties/slash.rs:4-39. -/
def processSlash (now : Nat) (w : World) (accs : List AccountInfo) (miningOwner : Key)
    (native multiplied : Nat) (expiration : Option Nat) : Res World := do
  let (depositAuthority, accs) ← nextSigner accs
  let (rewardPool, accs) ← nextWithOwner w env.programId accs
  let (mining, _) ← nextWithOwner w env.programId accs
  ensure (mining.key ≠ rewardPool.key) .panic
  let (p, m) ← getPoolAndMining env w miningOwner mining rewardPool depositAuthority
  let (p, m) ← p.slash now m native multiplied expiration
  pure (putMining env (putPool w rewardPool.key p) mining.key m)

/-- `process_decrease_rewards`, instructions/penalties/decrease_rewards.rs:4-32. -/
def processDecreaseRewards (w : World) (accs : List AccountInfo) (miningOwner : Key) (number : Nat) :
    Res World := do
  let (depositAuthority, accs) ← nextSigner accs
  let (rewardPool, accs) ← nextWithOwner w env.programId accs
  let (mining, _) ← nextWithOwner w env.programId accs
  ensure (mining.key ≠ rewardPool.key) .panic
  let (_, m) ← getPoolAndMining env w miningOwner mining rewardPool depositAuthority
  let m ← m.decreaseRewards number
  pure (putMining env w mining.key m)

/-- `process_instruction`, instructions/mod.rs:30-150 (after decoding, see `Verif.Model.Codec`).  The second component
is the return data (a `u64`) if the instruction sets it. -/
def process (now : Nat) (w : World) (accs : List AccountInfo) : Ix → Res (World × Option Nat)
  | .initializePool f d => do let w ← processInitializePool env w accs f d; pure (w, none)
  | .fillVault r e => do let w ← processFillVault env now w accs r e; pure (w, none)
  | .initializeMining o => do let w ← processInitializeMining env w accs o; pure (w, none)
  | .depositMining a l o d => do let w ← processDepositMining env now w accs a l o d; pure (w, none)
  | .withdrawMining a o d => do let w ← processWithdrawMining env now w accs a o d; pure (w, none)
  | .claim => do let (w, a) ← processClaim env now w accs; pure (w, some a)
  | .extendStake ol nl ts b a o d => do let w ← processExtendStake env now w accs ol nl ts b a o d; pure (w, none)
  | .distributeRewards => do let w ← processDistributeRewards env now w accs; pure (w, none)
  | .closeMining => do let w ← processCloseMining env now w accs; pure (w, none)
  | .changeDelegate a d => do let w ← processChangeDelegate env now w accs a d; pure (w, none)
  | .slash o n m e => do let w ← processSlash env now w accs o n m e; pure (w, none)
  | .decreaseRewards o n => do let w ← processDecreaseRewards env w accs o n; pure (w, none)

/-- One top-level instruction: the program, then the runtime's check that read-only accounts are unchanged.
(In the runtime the privileges of repeated accounts are merged, so all entries for one address agree.) -/
def exec (now : Nat) (w : World) (accs : List AccountInfo) (ix : Ix) : Res (World × Option Nat) := do
  let (w', ret) ← process env now w accs ix
  ensure (∀ a ∈ accs, a.isWritable = false → w' a.key = w a.key) .readonlyModified
  pure (w', ret)

/-- The instructions of a transaction in order, stopping at the first failure. -/
def execAll (now : Nat) : World → List (List AccountInfo × Ix) → Res World
  | w, [] => .ok w
  | w, (accs, ix) :: rest => do
    let (w, _) ← exec env now w accs ix
    execAll now w rest

/-- A transaction: all instructions or nothing (runtime atomicity). -/
def runTx (now : Nat) (w : World) (tx : List (List AccountInfo × Ix)) : World :=
  match execAll env now w tx with
  | .ok w' => w'
  | .error _ => w

/-- The chain as far as the program is concerned. -/
structure Chain where
  now : Nat
  world : World

/-- What can happen. -/
inductive Event
  /-- an instruction with an arbitrary account list, submitted by anyone -/
  | ix (accs : List AccountInfo) (i : Ix)
  /-- the clock advances -/
  | tick (seconds : Nat)
  /-- the runtime removes an account without lamports -/
  | gc (k : Key)
  /-- everything else on the chain -/
  | ext (w : World)

/-- What outside transactions can do to the accounts, by the runtime's ownership rules: they cannot touch data, owner or
lamports of program-owned accounts except by crediting lamports; a new program-owned account has zeroed data; and nobody
can create an account at an address derived from this program or at the all-zero address (the system program's). -/
structure ExtOk (w w' : World) : Prop where
  program_owned : ∀ k, (w k).owner = env.programId →
    (w' k).owner = (w k).owner ∧ (w' k).len = (w k).len ∧ (w' k).content = (w k).content ∧
    (w k).lamports ≤ (w' k).lamports
  new_zero : ∀ k, (w k).owner ≠ env.programId → (w' k).owner = env.programId →
    (w' k).content = .zero ∧ ¬ env.IsPda k ∧ k ≠ 0
  pda_system : ∀ k, env.IsPda k → (w k).owner = env.systemProgram → (w' k).owner = env.systemProgram ∧
    (w' k).len = (w k).len ∧ (w' k).content = (w k).content
  pda_token : ∀ k, env.IsPda k → (w k).owner = env.tokenProgram →
    (w' k).owner = env.tokenProgram ∨ (w' k).owner = env.systemProgram

/-- Which events can occur in a state. Nobody can sign for the all-zero address (the system program's). -/
def Event.Valid (s : Chain) : Event → Prop
  | .ix accs _ => ∀ a ∈ accs, a.isSigner = true → a.key ≠ 0
  | .tick _ => True
  | .gc k => (s.world k).lamports = 0
  | .ext w => ExtOk env s.world w

/-- Effect of an event; a failed instruction changes nothing. -/
def Chain.apply (s : Chain) : Event → Chain
  | .ix accs i =>
    match exec env s.now s.world accs i with
    | .ok (w, _) => { s with world := w }
    | .error _ => s
  | .tick d => { s with now := s.now + d }
  | .gc k => { s with world := s.world.set k { owner := env.systemProgram, lamports := 0, len := 0, content := .zero } }
  | .ext w => { s with world := w }

/-- `s` evolves to `s'` by the listed events. -/
inductive Runs : Chain → List Event → Chain → Prop
  | nil (s : Chain) : Runs s [] s
  | cons {s s' : Chain} {e : Event} {es : List Event} :
      e.Valid env s → Runs (s.apply env e) es s' → Runs s (e :: es) s'

end

end Verif
