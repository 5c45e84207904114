import Verif.Model.Idl
import Verif.Model.Clients
import Verif.Spec.Codec
/-!
Specification vocabulary for the interface description: the names of the program's instructions, arguments and accounts, written
down once more from the program.
-/

namespace Verif.Spec

/-- The variants of `LockupPeriod`, utils.rs. -/
def periodName : LockupPeriod → String
  | .none => "None" | .flex => "Flex" | .threeMonths => "ThreeMonths" | .sixMonths => "SixMonths" | .oneYear => "OneYear"

def optVal : Option Nat → IdlVal
  | none => .none
  | some n => .some (.num n)

/-- The variants of `RewardsInstruction`, instruction.rs:16-169. -/
def ixName : Ix → String
  | .initializePool .. => "InitializePool" | .fillVault .. => "FillVault" | .initializeMining .. => "InitializeMining"
  | .depositMining .. => "DepositMining" | .withdrawMining .. => "WithdrawMining" | .claim => "Claim"
  | .extendStake .. => "ExtendStake" | .distributeRewards => "DistributeRewards" | .closeMining => "CloseMining"
  | .changeDelegate .. => "ChangeDelegate" | .slash .. => "Slash" | .decreaseRewards .. => "DecreaseRewards"

/-- The fields of the variants with their names (in camel case), instruction.rs:16-169. -/
def ixFields : Ix → List (String × IdlVal)
  | .initializePool f d => [("fillAuthority", .num f), ("distributeAuthority", .num d)]
  | .fillVault r e => [("rewards", .num r), ("distributionEndsAt", .num e)]
  | .initializeMining o => [("miningOwner", .num o)]
  | .depositMining a l o d => [("amount", .num a), ("lockupPeriod", .variant (periodName l)), ("miningOwner", .num o),
      ("delegate", .num d)]
  | .withdrawMining a o d => [("amount", .num a), ("miningOwner", .num o), ("delegate", .num d)]
  | .claim | .distributeRewards | .closeMining => []
  | .extendStake ol nl ts b a o d => [("oldLockupPeriod", .variant (periodName ol)),
      ("newLockupPeriod", .variant (periodName nl)), ("depositStartTs", .num ts), ("baseAmount", .num b),
      ("additionalAmount", .num a), ("miningOwner", .num o), ("delegate", .num d)]
  | .changeDelegate a d => [("stakedAmount", .num a), ("newDelegate", .num d)]
  | .slash o n m e => [("miningOwner", .num o), ("slashAmountInNative", .num n),
      ("slashAmountMultipliedByPeriod", .num m), ("stakeExpirationDate", optVal e)]
  | .decreaseRewards o n => [("miningOwner", .num o), ("decreasedWeightedStakeNumber", .num n)]

/-- The values of a type of the description. -/
def HasType : IdlType → IdlVal → Prop
  | .u8, .num n => n < 2 ^ 8
  | .u64, .num n => n < 2 ^ 64
  | .u128, .num n => n < 2 ^ 128
  | .publicKey, .num n => n < 2 ^ 256
  | .option _, .none => True
  | .option t, .some v => HasType t v
  | .defined e, .variant s => ∃ vs, idlEnums.lookup e = some vs ∧ s ∈ vs
  | _, _ => False

/-- Values for the arguments of an instruction, in order. -/
def HasTypes : List (String × IdlType) → List IdlVal → Prop
  | [], [] => True
  | a :: as, v :: vs => HasType a.2 v ∧ HasTypes as vs
  | _, _ => False

/-- The accounts by the names of the description. -/
def namedAccount (env : Env) (n : Names) : String → Option Key
  | "rewardPool" => some n.rewardPool
  | "rewardMint" => some n.rewardMint
  | "vault" => some n.vault
  | "payer" => some n.payer
  | "depositAuthority" => some n.depositAuthority
  | "fillAuthority" => some n.fillAuthority
  | "distributeAuthority" => some n.distributeAuthority
  | "sourceTokenAccount" => some n.source
  | "mining" => some n.mining
  | "miningOwner" => some n.miningOwner
  | "miningOwnerRewardTokenAccount" => some n.userToken
  | "delegateMining" => some n.delegateMining
  | "oldDelegateMining" => some n.oldDelegateMining
  | "newDelegateMining" => some n.newDelegateMining
  | "targetAccount" => some n.target
  | "rent" => some env.rentSysvar
  | "tokenProgram" => some env.tokenProgram
  | "systemProgram" => some env.systemProgram
  | _ => none

/-- The account list of an instruction of the description. -/
def describedAccounts (env : Env) (n : Names) (e : IdlInstruction) : List (Option AccountInfo) :=
  e.accounts.map fun a => (namedAccount env n a.name).map fun k => { key := k, isSigner := a.isSigner, isWritable := a.isMut }

/-- The header of a mining with the names of the description. -/
def miningNamed (h : MiningHeader) : List (String × Nat) :=
  [("rewardPool", h.rewardPool), ("owner", h.owner), ("rewardMint", h.rewardMint), ("indexWithPrecision", h.index),
   ("share", h.share), ("unclaimedRewards", h.unclaimed), ("stakeFromOthers", h.stakeFromOthers), ("bump", h.bump),
   ("data", h.data)]

/-- The header of a pool with the names of the description. -/
def poolNamed (h : PoolHeader) : List (String × Nat) :=
  [("depositAuthority", h.depositAuthority), ("distributeAuthority", h.distributeAuthority),
   ("fillAuthority", h.fillAuthority), ("rewardMint", h.rewardMint), ("indexWithPrecision", h.index),
   ("totalShare", h.totalShare), ("distributionEndsAt", h.distributionEndsAt),
   ("tokensAvailableForDistribution", h.tokensAvailable), ("tokenAccountBump", h.bump), ("data", h.data)]

end Verif.Spec
