import Verif.Spec.Access
import Verif.Spec.Rewards
/-!
Specification vocabulary for failures: the accounts each instruction asks for and what each error stands for.
-/

namespace Verif.Spec

/-- What an instruction asks of one of its accounts. -/
inductive Slot
  /-- an account of the program `k` -/
  | owned (k : Key)
  /-- a signer -/
  | signer
  /-- the account with address `k` -/
  | address (k : Key)
  /-- an account without data or with zeroed data -/
  | fresh

/-- The accounts of an instruction in order (instruction.rs:18-168). -/
def slots (env : Env) : Ix → List Slot
  | .initializePool .. => [.owned env.programId, .owned env.tokenProgram, .fresh, .signer, .signer, .address env.rentSysvar,
      .address env.tokenProgram, .address env.systemProgram]
  | .fillVault .. => [.owned env.programId, .owned env.tokenProgram, .owned env.tokenProgram, .signer, .owned env.tokenProgram,
      .address env.tokenProgram]
  | .initializeMining .. => [.owned env.programId, .fresh, .signer, .address env.systemProgram]
  | .depositMining .. | .withdrawMining .. | .extendStake .. =>
    [.owned env.programId, .owned env.programId, .signer, .owned env.programId]
  | .claim => [.owned env.programId, .owned env.tokenProgram, .owned env.tokenProgram, .owned env.programId, .signer, .signer,
      .owned env.tokenProgram, .address env.tokenProgram]
  | .distributeRewards => [.owned env.programId, .signer]
  | .closeMining => [.owned env.programId, .signer, .owned env.systemProgram, .signer, .owned env.programId]
  | .changeDelegate .. => [.owned env.programId, .owned env.programId, .signer, .signer, .owned env.programId,
      .owned env.programId]
  | .slash .. | .decreaseRewards .. => [.signer, .owned env.programId, .owned env.programId]

/-- The account entry meets what is asked. -/
def Slot.Fits (w : World) (a : AccountInfo) : Slot → Prop
  | .owned k => (w a.key).owner = k
  | .signer => a.isSigner = true
  | .address k => a.key = k
  | .fresh => (w a.key).content.allZero = true

instance (w : World) (a : AccountInfo) (s : Slot) : Decidable (s.Fits w a) := by
  cases s <;> unfold Slot.Fits <;> infer_instance

/-- The error for an entry that does not. -/
def Slot.error : Slot → Err
  | .owned _ => .custom .invalidAccountOwner
  | .signer => .missingRequiredSignature
  | .address _ => .invalidArgument
  | .fresh => .accountAlreadyInitialized

/-- The error for the first entry that is missing or does not meet what is asked; `none` if the list of accounts is fine. -/
def slotError (w : World) : List Slot → List AccountInfo → Option Err
  | [], _ => none
  | _ :: _, [] => some .notEnoughAccountKeys
  | s :: ss, a :: accs => if s.Fits w a then slotError w ss accs else some s.error

/-- An initialized mining. -/
def Proper (env : Env) (w : World) (k : Key) (m : Mining) : Prop := MiningAt env w k m ∧ m.accountType = 2

/-- The program's accounts are of the kind the instruction is about: the pool is a pool and the minings are minings; a pool
to be created is a pool already or a zeroed account. -/
structure RightKind (env : Env) (w : World) (accs : List AccountInfo) (i : Ix) : Prop where
  pool : ∀ k, poolArg accs i = some k → (∃ p, PoolAt env w k p) ∨
    ((∃ f d, i = .initializePool f d) ∧ (w k).content = .zero) ∨ ∃ o, i = .initializeMining o
  mining : ∀ k, miningArg accs i = some k → (∃ m, Proper env w k m) ∨ ∃ o, i = .initializeMining o
  delegate : ∀ k, delegateArg accs i = some k → ∃ m, Proper env w k m
  oldDelegate : ∀ k, oldDelegateArg accs i = some k → ∃ m, Proper env w k m

/-- Something about the pool of the instruction. -/
def OfPool (env : Env) (w : World) (accs : List AccountInfo) (i : Ix) (φ : Key → Pool → Prop) : Prop :=
  ∃ k p, poolArg accs i = some k ∧ PoolAt env w k p ∧ φ k p

/-- Something about the mining of the instruction. -/
def OfMining (env : Env) (w : World) (accs : List AccountInfo) (i : Ix) (φ : Key → Mining → Prop) : Prop :=
  ∃ k m, miningArg accs i = some k ∧ MiningAt env w k m ∧ φ k m

/-- The authority entry of an instruction. -/
def authorityArg (accs : List AccountInfo) : Ix → Option Key
  | .fillVault .. | .closeMining => accs[3]?.map (·.key)
  | .depositMining .. | .withdrawMining .. | .extendStake .. | .changeDelegate .. => accs[2]?.map (·.key)
  | .claim => accs[5]?.map (·.key)
  | .distributeRewards => accs[1]?.map (·.key)
  | .slash .. | .decreaseRewards .. => accs[0]?.map (·.key)
  | .initializePool .. | .initializeMining .. => none

/-- The authority of the pool that has to sign the instruction. -/
def authorityOf (p : Pool) : Ix → Key
  | .fillVault .. => p.fillAuthority
  | .distributeRewards => p.distributeAuthority
  | _ => p.depositAuthority

/-- The staker named by an instruction. -/
def stakerArg (accs : List AccountInfo) : Ix → Option Key
  | .depositMining _ _ o _ | .withdrawMining _ o _ | .extendStake _ _ _ _ _ o _ | .slash o _ _ _ | .decreaseRewards o _ => some o
  | .claim => accs[4]?.map (·.key)
  | .closeMining => accs[1]?.map (·.key)
  | .changeDelegate .. => accs[3]?.map (·.key)
  | _ => none

/-- Instructions that bring a mining up to date. -/
def refreshes : Ix → Bool
  | .depositMining .. | .withdrawMining .. | .extendStake .. | .claim | .closeMining | .changeDelegate .. | .slash .. => true
  | _ => false

/-- Days of a lockup period. -/
def lockDays : LockupPeriod → Nat
  | .none => 0
  | .flex => 5
  | .threeMonths => 90
  | .sixMonths => 180
  | .oneYear => 365

/-- The pool's authority did not sign at the authority's place. -/
def WrongAuthority (env : Env) (w : World) (accs : List AccountInfo) (i : Ix) : Prop :=
  OfPool env w accs i fun _ p => authorityArg accs i ≠ some (authorityOf p i)

/-- The mining is not the named staker's. -/
def WrongStaker (env : Env) (w : World) (accs : List AccountInfo) (i : Ix) : Prop :=
  OfMining env w accs i fun _ m => stakerArg accs i ≠ some m.owner

/-- The mining is one of another pool. -/
def WrongPool (env : Env) (w : World) (accs : List AccountInfo) (i : Ix) : Prop :=
  i ≠ .closeMining ∧ OfMining env w accs i fun _ m => poolArg accs i ≠ some m.rewardPool

/-- The delegate's mining is not the named delegate's mining of this pool. -/
def WrongDelegate (env : Env) (w : World) (accs : List AccountInfo) (i : Ix) : Prop :=
  ∃ k m, delegateArg accs i = some k ∧ MiningAt env w k m ∧ miningArg accs i ≠ some k ∧
    (delegateWallet i ≠ some m.owner ∨ poolArg accs i ≠ some m.rewardPool)

/-- The vault of FillVault or Claim is not the one derived from the pool and the mint. -/
def WrongVault (env : Env) (w : World) (accs : List AccountInfo) (i : Ix) : Prop :=
  (i = .claim ∨ ∃ r e, i = .fillVault r e) ∧ OfPool env w accs i fun k p =>
    ∃ a b, accs[1]? = some a ∧ accs[2]? = some b ∧ env.vaultAddr k a.key p.bump ≠ some b.key

/-- The token account of Claim is not the staker's. -/
def WrongRecipient (env : Env) (w : World) (accs : List AccountInfo) (i : Ix) : Prop :=
  i = .claim ∧ ∃ a t, accs[6]? = some a ∧ TokenAt env w a.key t ∧ stakerArg accs i ≠ some t.owner

/-- The address of a new account is not the derived one, or the account for a new pool has the wrong size. -/
def WrongNewAccount (env : Env) (w : World) (accs : List AccountInfo) : Ix → Prop
  | .initializePool .. => (∃ a, accs[0]? = some a ∧ (w a.key).len ≠ 64480) ∨
      ∃ a b c, accs[0]? = some a ∧ accs[1]? = some b ∧ accs[2]? = some c ∧
        (env.findVault a.key b.key).map (·.1) ≠ some c.key
  | .initializeMining o => ∃ a b, accs[0]? = some a ∧ accs[1]? = some b ∧ (env.findMining o a.key).map (·.1) ≠ some b.key
  | _ => False

/-- No address can be derived for the new account. -/
def NoAddress (env : Env) (accs : List AccountInfo) : Ix → Prop
  | .initializePool .. => ∃ a b, accs[0]? = some a ∧ accs[1]? = some b ∧ env.findVault a.key b.key = none
  | .initializeMining o => ∃ a, accs[0]? = some a ∧ env.findMining o a.key = none
  | _ => False

/-- A lock would end after the year 584 billion. -/
def EndOfTime (now : Nat) : Ix → Prop
  | .depositMining _ l _ _ => 2 ^ 64 ≤ midnight now + lockDays l * 86400
  | .extendStake l l' ts _ _ _ _ =>
    2 ^ 64 ≤ midnight ts + lockDays l * 86400 ∨ 2 ^ 64 ≤ midnight now + lockDays l' * 86400
  | _ => False

/-- No expiration is recorded where the instruction says that there is one. -/
def NoExpiration (env : Env) (now : Nat) (w : World) (accs : List AccountInfo) : Ix → Prop
  | i@(.slash _ _ _ (some ts)) => midnight ts ≤ midnight now ∨
      (OfMining env w accs i fun _ m => SMap.get m.diffs (midnight ts) = none) ∨
      OfPool env w accs i fun _ p => SMap.get p.diffs (midnight ts) = none
  | i@(.extendStake l _ ts _ _ _ _) => l ≠ .flex ∧ now < midnight ts + lockDays l * 86400 ∧
      OfMining env w accs i fun _ m => SMap.get m.diffs (midnight ts + lockDays l * 86400) = none
  | _ => False

/-- What each error stands for, once the list of accounts is fine. -/
def Reason (env : Env) (now : Nat) (w : World) (accs : List AccountInfo) (i : Ix) : Err → Prop
  -- raised for the list of accounts only
  | .missingRequiredSignature | .notEnoughAccountKeys | .accountAlreadyInitialized | .custom .invalidAccountOwner => False
  -- never raised by the program
  | .invalidInstructionData | .custom .retreivingZeroCopyAccountFailire => False
  | .invalidAccountData => i = .claim ∧ ∃ a, accs[6]? = some a ∧ ∀ t, ¬ TokenAt env w a.key t
  | .uninitializedAccount => i = .claim ∧ ∃ a, accs[6]? = some a ∧ (w a.key).content = .zero
  | .invalidArgument => WrongAuthority env w accs i ∨ WrongStaker env w accs i ∨ WrongPool env w accs i ∨
      WrongVault env w accs i ∨ WrongRecipient env w accs i ∨ WrongNewAccount env w accs i
  | .invalidSeeds => WrongStaker env w accs i ∨ WrongPool env w accs i ∨ WrongVault env w accs i
  | .panic => NoAddress env accs i ∨ EndOfTime now i
  | .accountBorrowFailed => ∃ k, poolArg accs i = some k ∧ ((∃ f d a, i = .initializePool f d ∧ a ∈ accs.drop 1 ∧ a.key = k) ∨
      ∃ r e, i = .fillVault r e ∧ authorityArg accs i = some k)
  | .token => (∃ f d, i = .initializePool f d) ∨ movesTokens i = true
  | .system => (∃ f d, i = .initializePool f d) ∨ ∃ o, i = .initializeMining o
  | .privilegeEscalation => ((∃ f d, i = .initializePool f d) ∨ (∃ o, i = .initializeMining o) ∨ movesTokens i = true) ∧
      ∃ a ∈ accs, a.isWritable = false
  | .readonlyModified => ∃ a ∈ accs, a.isWritable = false
  | .custom .mathOverflow => match i with
    | .initializePool .. | .initializeMining .. | .decreaseRewards .. => False
    | .fillVault r e => OfPool env w accs i fun _ p =>
      midnight e < p.distributionEndsAt ∨ 2 ^ 64 ≤ e ∨ 2 ^ 64 ≤ p.tokensAvailable + r
    | _ => True
  | .custom .invalidPrimitiveTypesConversion => refreshes i = true
  | .custom .rewardsNoDeposits => i = .distributeRewards ∧ OfPool env w accs i fun _ p => p.totalShare = 0
  | .custom .invalidLockupPeriod => (∃ o d, i = .depositMining 0 .none o d) ∨
      ∃ l l' ts b a o d, i = .extendStake l l' ts b a o d ∧ (l = .none ∨ l' = .none ∧ b + a = 0)
  | .custom .distributionInThePast => ∃ r e, i = .fillVault r e ∧ midnight e < midnight now
  | .custom .rewardsMustBeClaimed => i = .closeMining ∧ OfPool env w accs i fun _ p => OfMining env w accs i fun _ m =>
      10 ^ 16 ≤ 10 ^ 16 * m.unclaimed + entitlement m p.cumulative now
  | .custom .rewardsMustBeGreaterThanZero => ∃ e, i = .fillVault 0 e
  | .custom .stakeFromOthersMustBeZero => i = .closeMining ∧ OfMining env w accs i fun _ m => 0 < m.stakeFromOthers
  | .custom .noWeightedStakeModifiersAtADate => NoExpiration env now w accs i
  | .custom .delegatesAreTheSame => delegateArg accs i = oldDelegateArg accs i ∧ ∃ a d, i = .changeDelegate a d
  | .custom .alreadyInitialized => (∃ f d, i = .initializePool f d) ∧ OfPool env w accs i fun _ _ => True
  | .custom .invalidMining | .custom .derivationError => WrongDelegate env w accs i
  | .custom .decreaseRewardsTooBig => ∃ o n, i = .decreaseRewards o n ∧ OfMining env w accs i fun _ m => m.share < n

end Verif.Spec
