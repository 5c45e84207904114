/-!
Errors, checked integer arithmetic, day arithmetic and lockup periods.

Source: /repo/programs/rewards/src/{error.rs, utils.rs, state/mod.rs}.
Integers are `Nat`; the range checks of the Rust types are explicit.
-/

namespace Verif

/-- `MplxRewardsError`, error.rs:13-94. -/
inductive RewardsErr
  | invalidAccountOwner
  | mathOverflow
  | rewardsNoDeposits
  | invalidLockupPeriod
  | distributionInThePast
  | invalidPrimitiveTypesConversion
  | rewardsMustBeClaimed
  | rewardsMustBeGreaterThanZero
  | stakeFromOthersMustBeZero
  | noWeightedStakeModifiersAtADate
  | delegatesAreTheSame
  | retreivingZeroCopyAccountFailire
  | alreadyInitialized
  | invalidMining
  | derivationError
  | decreaseRewardsTooBig
  deriving DecidableEq, Repr

/-- How an instruction can end unsuccessfully: a program error (`custom`, error.rs:102-106), one of the
`ProgramError` variants the program returns, a Rust panic, or an error raised by a called program or by the runtime. -/
inductive Err
  | custom (e : RewardsErr)
  | missingRequiredSignature
  | notEnoughAccountKeys
  | invalidArgument
  | accountAlreadyInitialized
  | invalidSeeds
  | invalidAccountData
  | uninitializedAccount
  | invalidInstructionData
  /-- Rust panic: slice out of range, `RefCell` already borrowed, integer overflow. -/
  | panic
  /-- `AccountBorrowFailed` raised by `invoke` when a passed account is still mutably borrowed. -/
  | accountBorrowFailed
  /-- any error of the SPL token program -/
  | token
  /-- any error of the system program -/
  | system
  /-- a cross-program call asked for a signer or writable privilege the instruction does not have -/
  | privilegeEscalation
  /-- the runtime found a read-only account modified -/
  | readonlyModified
  deriving DecidableEq, Repr

/-- Result of fallible code. -/
abbrev Res := Except Err

/-- Fails with `e` unless `c` holds. Models every `if !c { return Err(e) }`. -/
def ensure (c : Prop) [Decidable c] (e : Err) : Res Unit :=
  if c then .ok () else .error e

/-- `Option::ok_or(e)`. -/
def okOr {α : Type} (o : Option α) (e : Err) : Res α :=
  match o with
  | some a => .ok a
  | none => .error e

/-- 2^64, number of values of `u64`. -/
def U64 : Nat := 18446744073709551616
/-- 2^128, number of values of `u128`. -/
def U128 : Nat := 340282366920938463463374607431768211456
/-- `PRECISION`, state/mod.rs:17. -/
def PRECISION : Nat := 10000000000000000
/-- `solana_program::clock::SECONDS_PER_DAY`. -/
def DAY : Nat := 86400

def mathOverflow : Err := .custom .mathOverflow

/-- `<u64 as SafeArithmeticOperations>::safe_add`, utils.rs:310-313. -/
def safeAdd64 (a b : Nat) : Res Nat := if a + b < U64 then .ok (a + b) else .error mathOverflow
/-- `<u64 as SafeArithmeticOperations>::safe_mul`, utils.rs:315-318. -/
def safeMul64 (a b : Nat) : Res Nat := if a * b < U64 then .ok (a * b) else .error mathOverflow
/-- `safe_sub` of u64 and u128, utils.rs:305-308 and 327-330 (the same function on `Nat`). -/
def safeSub (a b : Nat) : Res Nat := if b ≤ a then .ok (a - b) else .error mathOverflow
/-- `<u128 as SafeArithmeticOperations>::safe_add`, utils.rs:332-335. -/
def safeAdd128 (a b : Nat) : Res Nat := if a + b < U128 then .ok (a + b) else .error mathOverflow
/-- `<u128 as SafeArithmeticOperations>::safe_mul`, utils.rs:337-340. -/
def safeMul128 (a b : Nat) : Res Nat := if a * b < U128 then .ok (a * b) else .error mathOverflow
/-- `safe_div` of u64 and u128, utils.rs:320-323 and 342-345. -/
def safeDiv (a b : Nat) : Res Nat := if b = 0 then .error mathOverflow else .ok (a / b)
/-- `u64::try_from(x).map_err(|_| InvalidPrimitiveTypesConversion)`, state/mining.rs:218-224. -/
def u64TryFrom (a : Nat) : Res Nat :=
  if a < U64 then .ok a else .error (.custom .invalidPrimitiveTypesConversion)
/-- Raw `a + b` on u64 with `overflow-checks = true` (Cargo.toml:6): panics on overflow. -/
def rawAdd64 (a b : Nat) : Res Nat := if a + b < U64 then .ok (a + b) else .error .panic

/-- `ts - (ts % SECONDS_PER_DAY)`, the beginning of the UTC day (utils.rs:263, mining.rs:58,
reward_pool.rs:140, 278, 308, fill_vault.rs:51, 53). -/
def bod (ts : Nat) : Nat := ts - ts % DAY

/-- `LockupPeriod`, utils.rs:234-245. -/
inductive LockupPeriod
  | none
  | flex
  | threeMonths
  | sixMonths
  | oneYear
  deriving DecidableEq, Repr

namespace LockupPeriod

/-- `LockupPeriod::multiplier`, utils.rs:250-258. -/
def multiplier : LockupPeriod → Nat
  | none => 0
  | threeMonths => 2
  | sixMonths => 4
  | oneYear => 6
  | flex => 1

/-- `LockupPeriod::end_timestamp`, utils.rs:261-272. -/
def endTimestamp (p : LockupPeriod) (startTs : Nat) : Res Nat :=
  match p with
  | none => .error (.custom .invalidLockupPeriod)
  | threeMonths => rawAdd64 (bod startTs) (DAY * 90)
  | sixMonths => rawAdd64 (bod startTs) (DAY * 180)
  | oneYear => rawAdd64 (bod startTs) (DAY * 365)
  | flex => rawAdd64 (bod startTs) (DAY * 5)

/-- `LockupPeriod::days`, utils.rs:275-283. -/
def days : LockupPeriod → Res Nat
  | none => .error (.custom .invalidLockupPeriod)
  | threeMonths => .ok 90
  | sixMonths => .ok 180
  | oneYear => .ok 365
  | flex => .ok 5

end LockupPeriod

end Verif
