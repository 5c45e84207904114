import Verif.Model.Clients
/-!
The instruction builders of the generated clients: how the accounts of an instruction are assembled from what the caller passes.

JS: `clients/js/src/generated/instructions/*.ts` and `getAccountMetasAndSigners` in `clients/js/src/generated/shared/index.ts`.
Rust: the structs `XBuilder`, `XCpi` and `XCpiBuilder` in `clients/rust/src/generated/instructions/*.rs`.

Simplifications: the callers' data structures are functions from the names of the accounts (in camel case) to what was passed;
Umi's registry of programs (`context.programs.getPublicKey`) gives the addresses of the programs of `env`.
-/

namespace Verif

/-- What an account is if the caller does not give it: Umi's payer, or a fixed address. -/
inductive SlotDefault | payer | rent | tokenProgram | systemProgram
  deriving DecidableEq, Repr

/-! ### JS -/

/-- A value for an account: `PublicKey | Pda`, or `Signer`. -/
inductive JsValue | address (k : Key) | signer (k : Key)
  deriving DecidableEq, Repr

/-- An entry of `resolvedAccounts`, with the declared type of the input (`isSigner`: `Signer`, else `PublicKey | Pda`) and the value
taken if there is none. -/
structure JsSlot where
  name : String
  index : Nat
  isWritable : Bool
  isSigner : Bool
  default : Option SlotDefault
  deriving DecidableEq, Repr

/-- `XInstructionAccounts` and `resolvedAccounts` with the default values:
initializePool.ts:32-48, 101-167; fillVault.ts:31-44, 94-139; initializeMining.ts:31-39, 88-126;
depositMining.ts:37-46, 105-126; withdrawMining.ts:32-41, 97-118; claim.ts:30-47, 78-130; extendStake.ts:37-48,
113-139; distributeRewards.ts:30-35, 73-84; closeMining.ts:30-40, 75-101; changeDelegate.ts:32-45, 98-129;
slash.ts:35-42, 94-110; decreaseRewards.ts:32-39, 92-108. -/
def jsSlots : Ix → List JsSlot
  | .initializePool .. => [
      ⟨"rewardPool", 0, true, false, none⟩,
      ⟨"rewardMint", 1, false, false, none⟩,
      ⟨"vault", 2, true, false, none⟩,
      ⟨"payer", 3, true, true, some .payer⟩,
      ⟨"depositAuthority", 4, false, true, none⟩,
      ⟨"rent", 5, false, false, some .rent⟩,
      ⟨"tokenProgram", 6, false, false, some .tokenProgram⟩,
      ⟨"systemProgram", 7, false, false, some .systemProgram⟩]
  | .fillVault .. => [
      ⟨"rewardPool", 0, true, false, none⟩,
      ⟨"rewardMint", 1, false, false, none⟩,
      ⟨"vault", 2, true, false, none⟩,
      ⟨"fillAuthority", 3, false, true, none⟩,
      ⟨"sourceTokenAccount", 4, true, false, none⟩,
      ⟨"tokenProgram", 5, false, false, some .tokenProgram⟩]
  | .initializeMining .. => [
      ⟨"rewardPool", 0, true, false, none⟩,
      ⟨"mining", 1, true, false, none⟩,
      ⟨"payer", 2, true, true, some .payer⟩,
      ⟨"systemProgram", 3, false, false, some .systemProgram⟩]
  | .depositMining .. => [
      ⟨"rewardPool", 0, true, false, none⟩,
      ⟨"mining", 1, true, false, none⟩,
      ⟨"depositAuthority", 2, false, true, none⟩,
      ⟨"delegateMining", 3, false, false, none⟩]
  | .withdrawMining .. => [
      ⟨"rewardPool", 0, true, false, none⟩,
      ⟨"mining", 1, true, false, none⟩,
      ⟨"depositAuthority", 2, false, true, none⟩,
      ⟨"delegateMining", 3, false, false, none⟩]
  | .claim => [
      ⟨"rewardPool", 0, false, false, none⟩,
      ⟨"rewardMint", 1, false, false, none⟩,
      ⟨"vault", 2, true, false, none⟩,
      ⟨"mining", 3, true, false, none⟩,
      ⟨"miningOwner", 4, false, true, none⟩,
      ⟨"depositAuthority", 5, false, true, none⟩,
      ⟨"miningOwnerRewardTokenAccount", 6, true, false, none⟩,
      ⟨"tokenProgram", 7, false, false, some .tokenProgram⟩]
  | .extendStake .. => [
      ⟨"rewardPool", 0, true, false, none⟩,
      ⟨"mining", 1, true, false, none⟩,
      ⟨"rewardMint", 2, false, false, none⟩,
      ⟨"depositAuthority", 3, false, true, none⟩,
      ⟨"delegateMining", 4, false, false, none⟩]
  | .distributeRewards => [
      ⟨"rewardPool", 0, true, false, none⟩,
      ⟨"distributeAuthority", 1, false, true, none⟩]
  | .closeMining => [
      ⟨"mining", 0, false, false, none⟩,
      ⟨"miningOwner", 1, false, true, none⟩,
      ⟨"targetAccount", 2, true, false, none⟩,
      ⟨"depositAuthority", 3, false, true, none⟩,
      ⟨"rewardPool", 4, true, false, none⟩]
  | .changeDelegate .. => [
      ⟨"rewardPool", 0, true, false, none⟩,
      ⟨"mining", 1, true, false, none⟩,
      ⟨"depositAuthority", 2, false, true, none⟩,
      ⟨"miningOwner", 3, false, true, none⟩,
      ⟨"oldDelegateMining", 4, true, false, none⟩,
      ⟨"newDelegateMining", 5, true, false, none⟩]
  | .slash .. => [
      ⟨"depositAuthority", 0, false, true, none⟩,
      ⟨"rewardPool", 1, true, false, none⟩,
      ⟨"mining", 2, true, false, none⟩]
  | .decreaseRewards .. => [
      ⟨"depositAuthority", 0, false, true, none⟩,
      ⟨"rewardPool", 1, true, false, none⟩,
      ⟨"mining", 2, true, false, none⟩]

/-- "Default values", e.g. initializePool.ts:143-164; `payer` is `context.payer`, a `Signer`. -/
def jsDefault (env : Env) (payer : Key) : SlotDefault → JsValue
  | .payer => .signer payer
  | .rent => .address env.rentSysvar
  | .tokenProgram => .address env.tokenProgram
  | .systemProgram => .address env.systemProgram

/-- A resolved account: `ResolvedAccountsWithIndices`, shared/index.ts:67-85. -/
structure JsResolved where
  index : Nat
  isWritable : Bool
  value : Option JsValue
  deriving DecidableEq, Repr

/-- `input.x ?? null` and the default values.  (All defaults are read-only or keep the declared privilege.) -/
def jsResolve (env : Env) (payer : Key) (input : String → Option JsValue) (s : JsSlot) : JsResolved :=
  { index := s.index, isWritable := s.isWritable,
    value := (input s.name).or (s.default.map (jsDefault env payer)) }

def insertByIndex (a : JsResolved) : List JsResolved → List JsResolved
  | [] => [a]
  | b :: t => if a.index ≤ b.index then a :: b :: t else b :: insertByIndex a t

/-- `Object.values(resolvedAccounts).sort((a, b) => a.index - b.index)`, e.g. claim.ts:130-132. -/
def sortByIndex (l : List JsResolved) : List JsResolved := l.foldr insertByIndex []

/-- `getAccountMetasAndSigners` with the strategy 'programId', shared/index.ts:91-117. -/
def jsMetasAndSigners (programId : Key) : List JsResolved → List AccountInfo × List Key
  | [] => ([], [])
  | a :: t =>
    let (keys, signers) := jsMetasAndSigners programId t
    match a.value with
    | none => ({ key := programId, isSigner := false, isWritable := false } :: keys, signers)
    | some (.address k) => ({ key := k, isSigner := false, isWritable := a.isWritable } :: keys, signers)
    | some (.signer k) => ({ key := k, isSigner := true, isWritable := a.isWritable } :: keys, k :: signers)

/-- The body of a JS builder: the account list of the instruction and the signers of the transaction, e.g. claim.ts:66-151. -/
def jsBuild (env : Env) (payer : Key) (input : String → Option JsValue) (i : Ix) : List AccountInfo × List Key :=
  jsMetasAndSigners env.programId (sortByIndex ((jsSlots i).map (jsResolve env payer input)))

/-! ### Rust -/

/-- A field of an instruction struct: the privileges with which it is pushed, and the value taken if it was not set. -/
structure RustSlot where
  name : String
  isWritable : Bool
  isSigner : Bool
  default : Option SlotDefault
  deriving DecidableEq, Repr

/-- `X::instruction_with_remaining_accounts` and `XBuilder::instruction`:
initialize_pool.rs:45-75, 133-252; fill_vault.rs:40-64, 118-215; initialize_mining.rs:37-53, 101-169;
deposit_mining.rs:38-55, 109-204; withdraw_mining.rs:37-54, 106-192; claim.rs:40-72, 119-218; extend_stake.rs:40-61,
123-252; distribute_rewards.rs:28-37, 74-123; close_mining.rs:34-55, 96-165; change_delegate.rs:41-66, 120-224;
slash.rs:35-48, 100-192; decrease_rewards.rs:35-48, 96-172. -/
def rustSlots : Ix → List RustSlot
  | .initializePool .. => [
      ⟨"rewardPool", true, false, none⟩,
      ⟨"rewardMint", false, false, none⟩,
      ⟨"vault", true, false, none⟩,
      ⟨"payer", true, true, none⟩,
      ⟨"depositAuthority", false, true, none⟩,
      ⟨"rent", false, false, some .rent⟩,
      ⟨"tokenProgram", false, false, some .tokenProgram⟩,
      ⟨"systemProgram", false, false, some .systemProgram⟩]
  | .fillVault .. => [
      ⟨"rewardPool", true, false, none⟩,
      ⟨"rewardMint", false, false, none⟩,
      ⟨"vault", true, false, none⟩,
      ⟨"fillAuthority", false, true, none⟩,
      ⟨"sourceTokenAccount", true, false, none⟩,
      ⟨"tokenProgram", false, false, some .tokenProgram⟩]
  | .initializeMining .. => [
      ⟨"rewardPool", true, false, none⟩,
      ⟨"mining", true, false, none⟩,
      ⟨"payer", true, true, none⟩,
      ⟨"systemProgram", false, false, some .systemProgram⟩]
  | .depositMining .. => [
      ⟨"rewardPool", true, false, none⟩,
      ⟨"mining", true, false, none⟩,
      ⟨"depositAuthority", false, true, none⟩,
      ⟨"delegateMining", false, false, none⟩]
  | .withdrawMining .. => [
      ⟨"rewardPool", true, false, none⟩,
      ⟨"mining", true, false, none⟩,
      ⟨"depositAuthority", false, true, none⟩,
      ⟨"delegateMining", false, false, none⟩]
  | .claim => [
      ⟨"rewardPool", false, false, none⟩,
      ⟨"rewardMint", false, false, none⟩,
      ⟨"vault", true, false, none⟩,
      ⟨"mining", true, false, none⟩,
      ⟨"miningOwner", false, true, none⟩,
      ⟨"depositAuthority", false, true, none⟩,
      ⟨"miningOwnerRewardTokenAccount", true, false, none⟩,
      ⟨"tokenProgram", false, false, some .tokenProgram⟩]
  | .extendStake .. => [
      ⟨"rewardPool", true, false, none⟩,
      ⟨"mining", true, false, none⟩,
      ⟨"rewardMint", false, false, none⟩,
      ⟨"depositAuthority", false, true, none⟩,
      ⟨"delegateMining", false, false, none⟩]
  | .distributeRewards => [
      ⟨"rewardPool", true, false, none⟩,
      ⟨"distributeAuthority", false, true, none⟩]
  | .closeMining => [
      ⟨"mining", false, false, none⟩,
      ⟨"miningOwner", false, true, none⟩,
      ⟨"targetAccount", true, false, none⟩,
      ⟨"depositAuthority", false, true, none⟩,
      ⟨"rewardPool", true, false, none⟩]
  | .changeDelegate .. => [
      ⟨"rewardPool", true, false, none⟩,
      ⟨"mining", true, false, none⟩,
      ⟨"depositAuthority", false, true, none⟩,
      ⟨"miningOwner", false, true, none⟩,
      ⟨"oldDelegateMining", true, false, none⟩,
      ⟨"newDelegateMining", true, false, none⟩]
  | .slash .. => [
      ⟨"depositAuthority", false, true, none⟩,
      ⟨"rewardPool", true, false, none⟩,
      ⟨"mining", true, false, none⟩]
  | .decreaseRewards .. => [
      ⟨"depositAuthority", false, true, none⟩,
      ⟨"rewardPool", true, false, none⟩,
      ⟨"mining", true, false, none⟩]

/-- `unwrap_or(solana_program::pubkey!(…))`, e.g. initialize_pool.rs:228-236. -/
def rustDefault (env : Env) : SlotDefault → Option Key
  | .payer => none
  | .rent => some env.rentSysvar
  | .tokenProgram => some env.tokenProgram
  | .systemProgram => some env.systemProgram

/-- One field of the struct: `expect("… is not set")` or `unwrap_or`; `none` is the panic. -/
def rustField (env : Env) (set : String → Option Key) (s : RustSlot) : Option AccountInfo :=
  ((set s.name).or (s.default.bind (rustDefault env))).map fun k =>
    { key := k, isSigner := s.isSigner, isWritable := s.isWritable }

def rustFields (env : Env) (set : String → Option Key) : List RustSlot → Option (List AccountInfo)
  | [] => some []
  | s :: t => (rustField env set s).bind fun a => (rustFields env set t).map (a :: ·)

/-- `XBuilder::instruction` with the accounts given to `add_remaining_account(s)`, e.g. claim.rs:180-216; `none` is a panic. -/
def rustBuild (env : Env) (set : String → Option Key) (remaining : List AccountInfo) (i : Ix) : Option (List AccountInfo) :=
  (rustFields env set (rustSlots i)).map (· ++ remaining)

/-- An element of `__remaining_accounts` of a CPI builder: account, first flag, second flag. -/
abbrev Remaining := AccountInfo × Bool × Bool

/-- `XCpiBuilder::add_remaining_account(account, is_writable, is_signer)`, e.g. claim.rs:484-494. -/
def addRemaining (l : List Remaining) (account : AccountInfo) (isWritable isSigner : Bool) : List Remaining :=
  l ++ [(account, isWritable, isSigner)]

/-- The metas of the remaining accounts in `XCpi::invoke_signed_with_remaining_accounts`, e.g. claim.rs:344-350. -/
def cpiRemaining (l : List Remaining) : List AccountInfo :=
  l.map fun r => { key := r.1.key, isSigner := r.2.1, isWritable := r.2.2 }

/-- The fields of a CPI builder: all have to be set (`expect`), there are no defaults, e.g. claim.rs:519-583. -/
def cpiFields (set : String → Option AccountInfo) : List RustSlot → Option (List (AccountInfo × RustSlot))
  | [] => some []
  | s :: t => (set s.name).bind fun a => (cpiFields set t).map ((a, s) :: ·)

/-- `XCpiBuilder::invoke_signed` and `XCpi::invoke_signed_with_remaining_accounts`: the account list of the instruction and the
account infos handed to the runtime, e.g. claim.rs:302-377, 519-564; `none` is a panic. -/
def cpiBuild (program : AccountInfo) (set : String → Option AccountInfo) (remaining : List Remaining) (i : Ix) :
    Option (List AccountInfo × List AccountInfo) :=
  (cpiFields set (rustSlots i)).map fun fs =>
    (fs.map (fun f => { key := f.1.key, isSigner := f.2.isSigner, isWritable := f.2.isWritable }) ++ cpiRemaining remaining,
      program :: fs.map (·.1) ++ remaining.map (·.1))

/-- The runtime's check of a cross-program call: every account of the instruction is among the account infos, and the caller has the
privileges it passes on, or signs by seeds for the addresses `pdas`. -/
def cpiAllowed (metas infos : List AccountInfo) (pdas : List Key) : Bool :=
  metas.all fun m => infos.any fun a => a.key = m.key && (!m.isWritable || a.isWritable) &&
    (!m.isSigner || a.isSigner || pdas.contains m.key)

end Verif
