import Verif.Model.Codec
import Verif.Model.Layout
/-!
The interface description `idls/mplx_rewards.json`, from which the clients are generated (configs/kinobi.cjs:8-9, 52-65), and
what its type language means.
-/

namespace Verif

/-- Types of the description. -/
inductive IdlType
  | u8 | u64 | u128 | publicKey
  | option (t : IdlType)
  | array (t : IdlType) (n : Nat)
  | defined (name : String)
  deriving DecidableEq, Repr

/-- An account of an instruction. -/
structure IdlAccount where
  name : String
  isMut : Bool
  isSigner : Bool
  deriving DecidableEq, Repr

/-- An instruction. -/
structure IdlInstruction where
  name : String
  discriminant : Nat
  accounts : List IdlAccount
  args : List (String × IdlType)
  deriving DecidableEq, Repr

/-- "instructions", idls/mplx_rewards.json:4-705. -/
def idlInstructions : List IdlInstruction := [
  { name := "InitializePool", discriminant := 0
    accounts := [
      ⟨"rewardPool", true, false⟩,
      ⟨"rewardMint", false, false⟩,
      ⟨"vault", true, false⟩,
      ⟨"payer", true, true⟩,
      ⟨"depositAuthority", false, true⟩,
      ⟨"rent", false, false⟩,
      ⟨"tokenProgram", false, false⟩,
      ⟨"systemProgram", false, false⟩]
    args := [("fillAuthority", .publicKey),
      ("distributeAuthority", .publicKey)] },
  { name := "FillVault", discriminant := 1
    accounts := [
      ⟨"rewardPool", true, false⟩,
      ⟨"rewardMint", false, false⟩,
      ⟨"vault", true, false⟩,
      ⟨"fillAuthority", false, true⟩,
      ⟨"sourceTokenAccount", true, false⟩,
      ⟨"tokenProgram", false, false⟩]
    args := [("rewards", .u64),
      ("distributionEndsAt", .u64)] },
  { name := "InitializeMining", discriminant := 2
    accounts := [
      ⟨"rewardPool", true, false⟩,
      ⟨"mining", true, false⟩,
      ⟨"payer", true, true⟩,
      ⟨"systemProgram", false, false⟩]
    args := [("miningOwner", .publicKey)] },
  { name := "DepositMining", discriminant := 3
    accounts := [
      ⟨"rewardPool", true, false⟩,
      ⟨"mining", true, false⟩,
      ⟨"depositAuthority", false, true⟩,
      ⟨"delegateMining", false, false⟩]
    args := [("amount", .u64),
      ("lockupPeriod", .defined "LockupPeriod"),
      ("miningOwner", .publicKey),
      ("delegate", .publicKey)] },
  { name := "WithdrawMining", discriminant := 4
    accounts := [
      ⟨"rewardPool", true, false⟩,
      ⟨"mining", true, false⟩,
      ⟨"depositAuthority", false, true⟩,
      ⟨"delegateMining", false, false⟩]
    args := [("amount", .u64),
      ("miningOwner", .publicKey),
      ("delegate", .publicKey)] },
  { name := "Claim", discriminant := 5
    accounts := [
      ⟨"rewardPool", false, false⟩,
      ⟨"rewardMint", false, false⟩,
      ⟨"vault", true, false⟩,
      ⟨"mining", true, false⟩,
      ⟨"miningOwner", false, true⟩,
      ⟨"depositAuthority", false, true⟩,
      ⟨"miningOwnerRewardTokenAccount", true, false⟩,
      ⟨"tokenProgram", false, false⟩]
    args := [] },
  { name := "ExtendStake", discriminant := 6
    accounts := [
      ⟨"rewardPool", true, false⟩,
      ⟨"mining", true, false⟩,
      ⟨"rewardMint", false, false⟩,
      ⟨"depositAuthority", false, true⟩,
      ⟨"delegateMining", false, false⟩]
    args := [("oldLockupPeriod", .defined "LockupPeriod"),
      ("newLockupPeriod", .defined "LockupPeriod"),
      ("depositStartTs", .u64),
      ("baseAmount", .u64),
      ("additionalAmount", .u64),
      ("miningOwner", .publicKey),
      ("delegate", .publicKey)] },
  { name := "DistributeRewards", discriminant := 7
    accounts := [
      ⟨"rewardPool", true, false⟩,
      ⟨"distributeAuthority", false, true⟩]
    args := [] },
  { name := "CloseMining", discriminant := 8
    accounts := [
      ⟨"mining", false, false⟩,
      ⟨"miningOwner", false, true⟩,
      ⟨"targetAccount", true, false⟩,
      ⟨"depositAuthority", false, true⟩,
      ⟨"rewardPool", true, false⟩]
    args := [] },
  { name := "ChangeDelegate", discriminant := 9
    accounts := [
      ⟨"rewardPool", true, false⟩,
      ⟨"mining", true, false⟩,
      ⟨"depositAuthority", false, true⟩,
      ⟨"miningOwner", false, true⟩,
      ⟨"oldDelegateMining", true, false⟩,
      ⟨"newDelegateMining", true, false⟩]
    args := [("stakedAmount", .u64),
      ("newDelegate", .publicKey)] },
  { name := "Slash", discriminant := 10
    accounts := [
      ⟨"depositAuthority", false, true⟩,
      ⟨"rewardPool", true, false⟩,
      ⟨"mining", true, false⟩]
    args := [("miningOwner", .publicKey),
      ("slashAmountInNative", .u64),
      ("slashAmountMultipliedByPeriod", .u64),
      ("stakeExpirationDate", .option .u64)] },
  { name := "DecreaseRewards", discriminant := 11
    accounts := [
      ⟨"depositAuthority", false, true⟩,
      ⟨"rewardPool", true, false⟩,
      ⟨"mining", true, false⟩]
    args := [("miningOwner", .publicKey),
      ("decreasedWeightedStakeNumber", .u64)] }]

/-- "accounts", idls/mplx_rewards.json:706-809. -/
def idlAccounts : List (String × List (String × IdlType)) := [
  ("Mining", [("rewardPool", .publicKey),
    ("owner", .publicKey),
    ("rewardMint", .publicKey),
    ("indexWithPrecision", .u128),
    ("share", .u64),
    ("unclaimedRewards", .u64),
    ("stakeFromOthers", .u64),
    ("bump", .u8),
    ("data", .array .u8 7)]),
  ("RewardPool", [("depositAuthority", .publicKey),
    ("distributeAuthority", .publicKey),
    ("fillAuthority", .publicKey),
    ("rewardMint", .publicKey),
    ("indexWithPrecision", .u128),
    ("totalShare", .u64),
    ("distributionEndsAt", .u64),
    ("tokensAvailableForDistribution", .u64),
    ("tokenAccountBump", .u8),
    ("data", .array .u8 7)])]

/-- "types" (all are enumerations), idls/mplx_rewards.json:810-851. -/
def idlEnums : List (String × List String) := [
  ("AccountType", ["Uninitialized", "RewardPool", "Mining"]),
  ("LockupPeriod", ["None", "Flex", "ThreeMonths", "SixMonths", "OneYear"])]

/-- "errors": code, name and message, idls/mplx_rewards.json:852-933. -/
def idlErrors : List (Nat × String × String) := [
  (0, "InvalidAccountOwner", "Input account owner"),
  (1, "MathOverflow", "Math operation overflow"),
  (2, "RewardsNoDeposits", "Rewards: No deposits"),
  (3, "InvalidLockupPeriod", "Rewards: lockup period invalid"),
  (4, "DistributionInThePast", "Rewards: distribution_ends_at date is lower than current date"),
  (5, "InvalidPrimitiveTypesConversion", "Rewards: distribution_ends_at date is lower than current date"),
  (6, "RewardsMustBeClaimed", "Rewards: unclaimed rewards must be claimed"),
  (7, "RewardsMustBeGreaterThanZero", "Rewards: rewards amount must be positive"),
  (8, "StakeFromOthersMustBeZero", "Rewards: Stake from others must be zero"),
  (9, "NoWeightedStakeModifiersAtADate", "No changes at the date in weighted stake modifiers while they're expected"),
  (10, "DelegatesAreTheSame", "Passed delegates are the same"),
  (11, "RetreivingZeroCopyAccountFailire", "Getting pointer to the data of the zero-copy account has failed"),
  (12, "AlreadyInitialized", "Account is already initialized"),
  (13, "InvalidMining", "Invalid mining"),
  (14, "DerivationError", "Failed to derive PDA"),
  (15, "DecreaseRewardsTooBig", "Rewards: Penalty is not apliable becase it's bigger than the mining's weighted stake")]

/-- Values: numbers (keys are 256-bit numbers), options, variants of an enumeration. -/
inductive IdlVal
  | num (n : Nat)
  | none
  | some (v : IdlVal)
  | variant (name : String)
  deriving DecidableEq, Repr

/-- Borsh serialization by type, as the generated clients do it: numbers little endian, a key its 32 bytes, an option the prefix
0, or 1 and the value, an enumeration the position of the variant in one byte.  (Arguments are never arrays.) -/
def IdlType.encode : IdlType → IdlVal → Bytes
  | .u8, .num n => toLE 1 n
  | .u64, .num n => toLE 8 n
  | .u128, .num n => toLE 16 n
  | .publicKey, .num n => toLE 32 n
  | .option _, .none => toLE 1 0
  | .option t, .some v => toLE 1 1 ++ t.encode v
  | .defined e, .variant s => toLE 1 (((idlEnums.lookup e).getD []).idxOf s)
  | _, _ => []

/-- Instruction data by the description: the discriminant in one byte, then the arguments in order. -/
def IdlInstruction.encode (e : IdlInstruction) (vs : List IdlVal) : Bytes :=
  toLE 1 e.discriminant ++ ((e.args.zip vs).map fun x => x.1.2.encode x.2).flatten

/-- Width of a type of an account field in bytes (an array of bytes is read as one number). -/
def IdlType.width : IdlType → Nat
  | .u8 => 1 | .u64 => 8 | .u128 => 16 | .publicKey => 32
  | .array t n => t.width * n
  | .option _ | .defined _ => 0

/-- Reading an account by the description, field after field. -/
def idlRead : List (String × IdlType) → Reader (List (String × Nat))
  | [] => Reader.pure []
  | (name, t) :: fs => Reader.bind (readLE t.width) fun v => Reader.bind (idlRead fs) fun vs => Reader.pure ((name, v) :: vs)

end Verif
