import Verif.Model.Arith
/-!
Error codes: error.rs:13-106 and the error tables of the generated clients.
-/

namespace Verif

/-- The Rust name of an error, error.rs:13-93. -/
def RewardsErr.name : RewardsErr → String
  | .invalidAccountOwner => "InvalidAccountOwner"
  | .mathOverflow => "MathOverflow"
  | .rewardsNoDeposits => "RewardsNoDeposits"
  | .invalidLockupPeriod => "InvalidLockupPeriod"
  | .distributionInThePast => "DistributionInThePast"
  | .invalidPrimitiveTypesConversion => "InvalidPrimitiveTypesConversion"
  | .rewardsMustBeClaimed => "RewardsMustBeClaimed"
  | .rewardsMustBeGreaterThanZero => "RewardsMustBeGreaterThanZero"
  | .stakeFromOthersMustBeZero => "StakeFromOthersMustBeZero"
  | .noWeightedStakeModifiersAtADate => "NoWeightedStakeModifiersAtADate"
  | .delegatesAreTheSame => "DelegatesAreTheSame"
  | .retreivingZeroCopyAccountFailire => "RetreivingZeroCopyAccountFailire"
  | .alreadyInitialized => "AlreadyInitialized"
  | .invalidMining => "InvalidMining"
  | .derivationError => "DerivationError"
  | .decreaseRewardsTooBig => "DecreaseRewardsTooBig"

/-- The text printed for an error, error.rs:16-93. -/
def RewardsErr.message : RewardsErr → String
  | .invalidAccountOwner => "Input account owner"
  | .mathOverflow => "Math operation overflow"
  | .rewardsNoDeposits => "Rewards: No deposits"
  | .invalidLockupPeriod => "Rewards: lockup period invalid"
  | .distributionInThePast => "Rewards: distribution_ends_at date is lower than current date"
  | .invalidPrimitiveTypesConversion => "Rewards: distribution_ends_at date is lower than current date"
  | .rewardsMustBeClaimed => "Rewards: unclaimed rewards must be claimed"
  | .rewardsMustBeGreaterThanZero => "Rewards: rewards amount must be positive"
  | .stakeFromOthersMustBeZero => "Rewards: Stake from others must be zero"
  | .noWeightedStakeModifiersAtADate => "No changes at the date in weighted stake modifiers while they're expected"
  | .delegatesAreTheSame => "Passed delegates are the same"
  | .retreivingZeroCopyAccountFailire => "Getting pointer to the data of the zero-copy account has failed"
  | .alreadyInitialized => "Account is already initialized"
  | .invalidMining => "Invalid mining"
  | .derivationError => "Failed to derive PDA"
  | .decreaseRewardsTooBig => "Rewards: Penalty is not apliable becase it's bigger than the mining's weighted stake"

/-- The variants of `MplxRewardsError` in order of declaration, error.rs:13-93. -/
def errorOrder : List RewardsErr :=
  [.invalidAccountOwner, .mathOverflow, .rewardsNoDeposits, .invalidLockupPeriod,
   .distributionInThePast, .invalidPrimitiveTypesConversion, .rewardsMustBeClaimed, .rewardsMustBeGreaterThanZero,
   .stakeFromOthersMustBeZero, .noWeightedStakeModifiersAtADate, .delegatesAreTheSame, .retreivingZeroCopyAccountFailire,
   .alreadyInitialized, .invalidMining, .derivationError, .decreaseRewardsTooBig]

/-- `ProgramError::Custom(e as u32)`, error.rs:102-106: the position of the variant. -/
def RewardsErr.code (e : RewardsErr) : Nat := errorOrder.idxOf e

/-- `MplxRewardsError` of the Rust client (clients/rust/src/generated/errors/mplx_rewards.rs), in order; `FromPrimitive` finds
the variant at a position. -/
def rustClientErrors : List String :=
  ["InvalidAccountOwner",
   "MathOverflow",
   "RewardsNoDeposits",
   "InvalidLockupPeriod",
   "DistributionInThePast",
   "InvalidPrimitiveTypesConversion",
   "RewardsMustBeClaimed",
   "RewardsMustBeGreaterThanZero",
   "StakeFromOthersMustBeZero",
   "NoWeightedStakeModifiersAtADate",
   "DelegatesAreTheSame",
   "RetreivingZeroCopyAccountFailire",
   "AlreadyInitialized",
   "InvalidMining",
   "DerivationError",
   "DecreaseRewardsTooBig"]

def rustClientError (code : Nat) : Option String := rustClientErrors[code]?

/-- `codeToErrorMap` of the JS client, clients/js/src/generated/errors/mplxRewards.ts. -/
def jsClientErrors : List (Nat × String) :=
  [(0x0, "InvalidAccountOwner"),
   (0x1, "MathOverflow"),
   (0x2, "RewardsNoDeposits"),
   (0x3, "InvalidLockupPeriod"),
   (0x4, "DistributionInThePast"),
   (0x5, "InvalidPrimitiveTypesConversion"),
   (0x6, "RewardsMustBeClaimed"),
   (0x7, "RewardsMustBeGreaterThanZero"),
   (0x8, "StakeFromOthersMustBeZero"),
   (0x9, "NoWeightedStakeModifiersAtADate"),
   (0xa, "DelegatesAreTheSame"),
   (0xb, "RetreivingZeroCopyAccountFailire"),
   (0xc, "AlreadyInitialized"),
   (0xd, "InvalidMining"),
   (0xe, "DerivationError"),
   (0xf, "DecreaseRewardsTooBig")]

/-- `getMplxRewardsErrorFromCode`, mplxRewards.ts: the name of the error built for a code. -/
def jsClientError (code : Nat) : Option String := (jsClientErrors.find? (·.1 == code)).map (·.2)

end Verif
