import Verif.Model.Codec
/-!
Instructions as the callers build them: the crate's own builder functions (instruction.rs:172-611) and the generated
clients (clients/rust/src/generated/instructions/*.rs and clients/js/src/generated/instructions/*.ts, which have the same
tables).
-/

namespace Verif

/-! ### Instruction data of the generated clients -/

/-- One argument of an instruction in a generated client, with its serializer. -/
inductive Arg
  /-- `u64` (Rust, Borsh), `u64()` (umi serializers) -/
  | u64 (v : Nat)
  /-- `Pubkey` (Rust, Borsh), `publicKeySerializer()` (umi) -/
  | key (k : Key)
  /-- `LockupPeriod` (types/lockup_period.rs, Borsh), `scalarEnum(LockupPeriod)` (types/lockupPeriod.ts) -/
  | period (l : LockupPeriod)
  /-- `Option<u64>` (Rust, Borsh), `option(u64())` (umi, prefix `u8`) -/
  | optU64 (v : Option Nat)
  deriving DecidableEq, Repr

/-- Bytes of an argument: integers little endian, a key its 32 bytes, an enum the index of the variant in one byte, an
option the prefix 0, or 1 and the value. -/
def Arg.bytes : Arg → Bytes
  | .u64 v => toLE 8 v
  | .key k => toLE 32 k
  | .period .none => [0]
  | .period .flex => [1]
  | .period .threeMonths => [2]
  | .period .sixMonths => [3]
  | .period .oneYear => [4]
  | .optU64 none => [0]
  | .optU64 (some v) => 1 :: toLE 8 v

/-- Discriminator and arguments in order, from the `*InstructionData`/`*InstructionArgs` structs of the generated
clients (e.g. deposit_mining.rs:68-88, depositMining.ts:67-84). -/
def clientArgs : Ix → UInt8 × List Arg
  | .initializePool f d => (0, [.key f, .key d])
  | .fillVault r e => (1, [.u64 r, .u64 e])
  | .initializeMining o => (2, [.key o])
  | .depositMining a l o d => (3, [.u64 a, .period l, .key o, .key d])
  | .withdrawMining a o d => (4, [.u64 a, .key o, .key d])
  | .claim => (5, [])
  | .extendStake ol nl ts b a o d => (6, [.period ol, .period nl, .u64 ts, .u64 b, .u64 a, .key o, .key d])
  | .distributeRewards => (7, [])
  | .closeMining => (8, [])
  | .changeDelegate a d => (9, [.u64 a, .key d])
  | .slash o n m e => (10, [.key o, .u64 n, .u64 m, .optU64 e])
  | .decreaseRewards o n => (11, [.key o, .u64 n])

/-- Instruction data of the generated clients: the discriminator, then the arguments. -/
def clientData (i : Ix) : Bytes := (clientArgs i).1 :: (clientArgs i).2.flatMap Arg.bytes

/-! ### Account lists -/

/-- The accounts a caller names. -/
structure Names where
  rewardPool : Key
  rewardMint : Key
  vault : Key
  payer : Key
  depositAuthority : Key
  fillAuthority : Key
  distributeAuthority : Key
  /-- token account the rewards come from -/
  source : Key
  mining : Key
  miningOwner : Key
  /-- token account the rewards go to -/
  userToken : Key
  delegateMining : Key
  oldDelegateMining : Key
  newDelegateMining : Key
  /-- where the rent of a closed mining goes -/
  target : Key
  deriving DecidableEq, Repr

/-- `AccountMeta::new(k, signer)` -/
def writableMeta (k : Key) (signer : Bool) : AccountInfo := { key := k, isSigner := signer, isWritable := true }
/-- `AccountMeta::new_readonly(k, signer)` -/
def readonlyMeta (k : Key) (signer : Bool) : AccountInfo := { key := k, isSigner := signer, isWritable := false }

/-- Account lists of the crate's builders, instruction.rs:172-611. -/
def crateMetas (env : Env) (n : Names) : Ix → List AccountInfo
  | .initializePool .. => [writableMeta n.rewardPool false, readonlyMeta n.rewardMint false, writableMeta n.vault false,
      writableMeta n.payer true, readonlyMeta n.depositAuthority true, readonlyMeta env.rentSysvar false,
      readonlyMeta env.tokenProgram false, readonlyMeta env.systemProgram false]
  | .fillVault .. => [writableMeta n.rewardPool false, readonlyMeta n.rewardMint false, writableMeta n.vault false,
      readonlyMeta n.fillAuthority true, writableMeta n.source false, readonlyMeta env.tokenProgram false]
  | .initializeMining .. => [writableMeta n.rewardPool false, writableMeta n.mining false, writableMeta n.payer true,
      readonlyMeta env.systemProgram false]
  | .depositMining .. | .withdrawMining .. | .extendStake .. => [writableMeta n.rewardPool false,
      writableMeta n.mining false, readonlyMeta n.depositAuthority true, writableMeta n.delegateMining false]
  | .claim => [readonlyMeta n.rewardPool false, readonlyMeta n.rewardMint false, writableMeta n.vault false,
      writableMeta n.mining false, readonlyMeta n.miningOwner true, readonlyMeta n.depositAuthority true,
      writableMeta n.userToken false, readonlyMeta env.tokenProgram false]
  | .distributeRewards => [writableMeta n.rewardPool false, readonlyMeta n.distributeAuthority true]
  | .closeMining => [writableMeta n.mining false, readonlyMeta n.miningOwner true, writableMeta n.target false,
      readonlyMeta n.depositAuthority true, readonlyMeta n.rewardPool false]
  | .changeDelegate .. => [writableMeta n.rewardPool false, writableMeta n.mining false,
      readonlyMeta n.depositAuthority true, readonlyMeta n.miningOwner true, writableMeta n.oldDelegateMining false,
      writableMeta n.newDelegateMining false]
  | .slash .. | .decreaseRewards .. => [readonlyMeta n.depositAuthority true, writableMeta n.rewardPool false,
      writableMeta n.mining false]

/-- Account lists of the generated clients (from the `#[account(..)]` attributes, instruction.rs:17-159).
Simplification: `rent`, `token_program` and `system_program` are parameters there, defaulting to the well-known addresses
(`rent` has no default); here they have these addresses. -/
def clientMetas (env : Env) (n : Names) : Ix → List AccountInfo
  | .initializePool .. => [writableMeta n.rewardPool false, readonlyMeta n.rewardMint false, writableMeta n.vault false,
      writableMeta n.payer true, readonlyMeta n.depositAuthority true, readonlyMeta env.rentSysvar false,
      readonlyMeta env.tokenProgram false, readonlyMeta env.systemProgram false]
  | .fillVault .. => [writableMeta n.rewardPool false, readonlyMeta n.rewardMint false, writableMeta n.vault false,
      readonlyMeta n.fillAuthority true, writableMeta n.source false, readonlyMeta env.tokenProgram false]
  | .initializeMining .. => [writableMeta n.rewardPool false, writableMeta n.mining false, writableMeta n.payer true,
      readonlyMeta env.systemProgram false]
  | .depositMining .. | .withdrawMining .. => [writableMeta n.rewardPool false, writableMeta n.mining false,
      readonlyMeta n.depositAuthority true, readonlyMeta n.delegateMining false]
  | .claim => [readonlyMeta n.rewardPool false, readonlyMeta n.rewardMint false, writableMeta n.vault false,
      writableMeta n.mining false, readonlyMeta n.miningOwner true, readonlyMeta n.depositAuthority true,
      writableMeta n.userToken false, readonlyMeta env.tokenProgram false]
  | .extendStake .. => [writableMeta n.rewardPool false, writableMeta n.mining false, readonlyMeta n.rewardMint false,
      readonlyMeta n.depositAuthority true, readonlyMeta n.delegateMining false]
  | .distributeRewards => [writableMeta n.rewardPool false, readonlyMeta n.distributeAuthority true]
  | .closeMining => [readonlyMeta n.mining false, readonlyMeta n.miningOwner true, writableMeta n.target false,
      readonlyMeta n.depositAuthority true, writableMeta n.rewardPool false]
  | .changeDelegate .. => [writableMeta n.rewardPool false, writableMeta n.mining false,
      readonlyMeta n.depositAuthority true, readonlyMeta n.miningOwner true, writableMeta n.oldDelegateMining false,
      writableMeta n.newDelegateMining false]
  | .slash .. | .decreaseRewards .. => [readonlyMeta n.depositAuthority true, writableMeta n.rewardPool false,
      writableMeta n.mining false]

/-- The accounts of an instruction as the runtime passes them: all entries for one address have the union of the
privileges requested for it. -/
def mergePrivileges (metas : List AccountInfo) : List AccountInfo :=
  metas.map fun m =>
    { key := m.key
      isSigner := metas.any fun x => x.key = m.key && x.isSigner
      isWritable := metas.any fun x => x.key = m.key && x.isWritable }

end Verif
