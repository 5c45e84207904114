import Verif.Model.State
/-!
Accounts, account parsing and the called programs (SPL token, system program).
-/

namespace Verif

/-- SPL token account (`spl_token::state::Account`), the fields that influence `Transfer`. -/
structure TokenAcc where
  mint : Key
  owner : Key
  amount : Nat
  frozen : Bool
  delegate : Option Key
  delegatedAmount : Nat
  native : Bool
  deriving DecidableEq, Repr

/-- Typed content of an account's data.  `zero` is all-zero data of the account's length (also the empty data of a
system account), `other` any other data the program never interprets.  Simplification: typed content instead of bytes;
the byte layout of the headers is modelled in `Verif.Model.Layout`. -/
inductive Content
  | zero
  | pool (p : Pool)
  | mining (m : Mining)
  | token (t : TokenAcc)
  | mint
  | other
  deriving DecidableEq, Repr

/-- An account: owning program, lamports, data length, data. -/
structure Account where
  owner : Key
  lamports : Nat
  len : Nat
  content : Content
  deriving DecidableEq, Repr

/-- All accounts. -/
abbrev World := Key → Account

/-- Replace one account. -/
def World.set (w : World) (k : Key) (a : Account) : World := fun k' => if k' = k then a else w k'

/-- `solana_program::account_info::AccountInfo` / `AccountMeta`: address and privileges; the account's fields are
looked up in the world, so two entries with one address are the same account (as in the runtime). -/
structure AccountInfo where
  key : Key
  isSigner : Bool
  isWritable : Bool
  deriving DecidableEq, Repr

/-- `RewardPool::LEN` = 176, size of the pool header (layout proved in `Props.Layout`). -/
def POOL_HEADER : Nat := 176
/-- `Mining::LEN` = 144. -/
def MINING_HEADER : Nat := 144
/-- `WrappedRewardPool::LEN`, reward_pool.rs:69. -/
def POOL_LEN : Nat := 64480
/-- `WrappedMining::LEN`, mining.rs:38-39: 144 + 16 + 16 + 50*32. -/
def MINING_LEN : Nat := 1776
/-- `spl_token::state::Account::LEN`. -/
def TOKEN_LEN : Nat := 165

/-- Everything the program depends on that is fixed during a history. -/
structure Env where
  programId : Key
  /-- `spl_token::id()` -/
  tokenProgram : Key
  /-- `system_program::id()` -/
  systemProgram : Key
  /-- `Rent::id()` -/
  rentSysvar : Key
  /-- wrapped SOL mint of the token program -/
  nativeMint : Key
  caps : Caps
  /-- `Rent::minimum_balance` -/
  rentMin : Nat → Nat
  /-- `Pubkey::create_program_address(["mining", owner, pool, [bump]])`, utils.rs:348-363, asserts.rs:112-120;
  arbitrary function, `none` = no valid address for this bump. -/
  miningAddr : (owner pool : Key) → (bump : Nat) → Option Key
  /-- `Pubkey::create_program_address(["vault", pool, mint, [bump]])`, claim.rs:49-58, fill_vault.rs:36-45. -/
  vaultAddr : (pool mint : Key) → (bump : Nat) → Option Key
  /-- `find_mining_program_address`, utils.rs:21-34; `none` = panic (no bump works). -/
  findMining : (owner pool : Key) → Option (Key × Nat)
  /-- `find_vault_program_address`, utils.rs:37-50. -/
  findVault : (pool mint : Key) → Option (Key × Nat)
  /-- The bytes of a pool account read as a mining (the program checks no discriminator). Arbitrary, except for the
  three leading keys, which occupy the same bytes in both layouts. -/
  poolAsMining : Pool → Mining
  /-- The pool after a mining has been written over its bytes. -/
  poolSetMining : Pool → Mining → Pool
  /-- The bytes of an account holding a mining (and long enough) read as a pool. -/
  miningAsPool : Mining → Pool
  program_ne_token : programId ≠ tokenProgram
  program_ne_system : programId ≠ systemProgram
  token_ne_system : tokenProgram ≠ systemProgram
  rentMin_pos : ∀ n, 0 < rentMin n
  /-- The all-zero address is a curve point, so `create_program_address` never returns it. -/
  miningAddr_ne_zero : ∀ o p b, miningAddr o p b ≠ some 0
  findMining_spec : ∀ o p k b, findMining o p = some (k, b) → miningAddr o p b = some k
  findVault_spec : ∀ p m k b, findVault p m = some (k, b) → vaultAddr p m b = some k
  poolAsMining_keys : ∀ p, (poolAsMining p).rewardPool = p.depositAuthority ∧
    (poolAsMining p).owner = p.distributeAuthority ∧ (poolAsMining p).rewardMint = p.fillAuthority
  poolSetMining_keys : ∀ p m, (poolSetMining p m).depositAuthority = m.rewardPool ∧
    (poolSetMining p m).distributeAuthority = m.owner ∧ (poolSetMining p m).fillAuthority = m.rewardMint
  miningAsPool_keys : ∀ m, (miningAsPool m).depositAuthority = m.rewardPool ∧
    (miningAsPool m).distributeAuthority = m.owner ∧ (miningAsPool m).fillAuthority = m.rewardMint

/-- Addresses derived from this program: nobody but the program can sign for them. -/
def Env.IsPda (env : Env) (k : Key) : Prop :=
  (∃ o p b, env.miningAddr o p b = some k) ∨ (∃ p m b, env.vaultAddr p m b = some k)

/-- Collision-freeness of the address derivation (SHA-256), a hypothesis of the theorems that need it. -/
structure Env.PdaInjective (env : Env) : Prop where
  vault : ∀ p m b p' m' b' k, env.vaultAddr p m b = some k → env.vaultAddr p' m' b' = some k →
    p = p' ∧ m = m' ∧ b = b'
  mining : ∀ o p b o' p' b' k, env.miningAddr o p b = some k → env.miningAddr o' p' b' = some k →
    o = o' ∧ p = p' ∧ b = b'
  disjoint : ∀ o p b p' m' b' k, env.miningAddr o p b = some k → env.vaultAddr p' m' b' ≠ some k

/-! ### Reading and writing account data -/

/-- Program-owned data viewed as a mining.  Program-owned accounts never hold token, mint or foreign data (an account
becomes program-owned only with zeroed data), those cases are treated as failures. -/
def viewMining (env : Env) : Content → Option Mining
  | .zero => some Mining.zero
  | .mining m => some m
  | .pool p => some (env.poolAsMining p)
  | _ => none

/-- Program-owned data viewed as a pool. -/
def viewPool (env : Env) : Content → Option Pool
  | .zero => some Pool.zero
  | .pool p => some p
  | .mining m => some (env.miningAsPool m)
  | _ => none

/-- `WrappedMining::from_bytes_mut` (mining.rs:41-53) and `WrappedImmutableMining::from_bytes` (mining.rs:243-255):
`split_at` and the tree load panic when the data is too short; longer data is accepted. -/
def loadMining (env : Env) (a : Account) : Res Mining := do
  ensure (MINING_LEN ≤ a.len) .panic
  okOr (viewMining env a.content) .panic

/-- `WrappedRewardPool::from_bytes_mut`, reward_pool.rs:71-90. -/
def loadPool (env : Env) (a : Account) : Res Pool := do
  ensure (POOL_LEN ≤ a.len) .panic
  okOr (viewPool env a.content) .panic

/-- Data after the mining view has been changed to `m` (zero-copy: the bytes are modified in place). -/
def storeMining (env : Env) (a : Account) (m : Mining) : Account :=
  if viewMining env a.content = some m then a
  else match a.content with
    | .pool p => { a with content := .pool (env.poolSetMining p m) }
    | _ => { a with content := .mining m }

/-- Data after the pool view has been changed to `p`; the pool view covers all interpreted bytes. -/
def storePool (a : Account) (p : Pool) : Account := { a with content := .pool p }

/-- `data.iter().all(|&x| x == 0)`, utils.rs:154-157. -/
def Content.allZero : Content → Bool
  | .zero => true
  | .mining m => decide (m = Mining.zero)
  | .pool p => decide (p = Pool.zero)
  | _ => false

/-! ### `AccountLoader`, utils.rs:147-230 -/

/-- `AccountLoader::next_unchecked` and the `NotEnoughAccountKeys` part of the others, utils.rs:218-223. -/
def nextAcc (accs : List AccountInfo) : Res (AccountInfo × List AccountInfo) :=
  match accs with
  | [] => .error .notEnoughAccountKeys
  | a :: r => .ok (a, r)

/-- `AccountLoader::next_uninitialized`, utils.rs:149-163. -/
def nextUninitialized (w : World) (accs : List AccountInfo) : Res (AccountInfo × List AccountInfo) := do
  let (a, r) ← nextAcc accs
  ensure ((w a.key).content.allZero = true) .accountAlreadyInitialized
  pure (a, r)

/-- `AccountLoader::next_with_owner`, utils.rs:166-183. -/
def nextWithOwner (w : World) (owner : Key) (accs : List AccountInfo) : Res (AccountInfo × List AccountInfo) := do
  let (a, r) ← nextAcc accs
  ensure ((w a.key).owner = owner) (.custom .invalidAccountOwner)
  pure (a, r)

/-- `AccountLoader::next_with_key`, utils.rs:186-202. -/
def nextWithKey (key : Key) (accs : List AccountInfo) : Res (AccountInfo × List AccountInfo) := do
  let (a, r) ← nextAcc accs
  ensure (a.key = key) .invalidArgument
  pure (a, r)

/-- `AccountLoader::next_signer`, utils.rs:205-215. -/
def nextSigner (accs : List AccountInfo) : Res (AccountInfo × List AccountInfo) := do
  let (a, r) ← nextAcc accs
  ensure (a.isSigner = true) .missingRequiredSignature
  pure (a, r)

/-- `assert_account_key`, asserts.rs:37-48. -/
def assertKey (k expected : Key) : Res Unit := ensure (k = expected) .invalidArgument

/-! ### Called programs -/

/-- A token account as the token program unpacks it. -/
def tokenOf (env : Env) (a : Account) : Res TokenAcc :=
  if a.owner = env.tokenProgram then
    match a.content with
    | .token t => .ok t
    | _ => .error .token
  else .error .token

/-- `spl_token::state::Account::unpack` (claim.rs:29-30), called by the program itself: data that is no token account's is refused
as invalid, zeroed data of the right length as uninitialized. -/
def unpackToken (a : Account) : Res TokenAcc :=
  match a.content with
  | .token t => .ok t
  | .zero => if a.len = TOKEN_LEN then .error .uninitializedAccount else .error .invalidAccountData
  | _ => .error .invalidAccountData

/-- The authority rule of `spl_token` `process_transfer`: the delegate up to the delegated amount, else the owner;
returns the source account with the delegation used up accordingly. -/
def transferAuth (s : TokenAcc) (auth : Key) (amount : Nat) : Res TokenAcc :=
  if s.delegate = some auth then
    if amount ≤ s.delegatedAmount then
      .ok { s with delegatedAmount := s.delegatedAmount - amount
                   delegate := if s.delegatedAmount - amount = 0 then none else s.delegate }
    else .error .token
  else if s.owner = auth then .ok s else .error .token

/-- Size of an SPL multisig account, `spl_token::state::Multisig::LEN`. -/
def MULTISIG_LEN : Nat := 355

/-- `spl_transfer` (utils.rs:90-107): the runtime's privilege check and `spl_token`'s `process_transfer` (frozen
accounts, balance, mint, authority, self-transfer, native accounts).  An authority that is an SPL multisig account is
refused, because `spl_transfer` passes none of its signers on. -/
def splTransfer (env : Env) (w : World) (src dst auth : AccountInfo) (amount : Nat) : Res World := do
  ensure (auth.isSigner = true ∧ src.isWritable = true ∧ dst.isWritable = true) .privilegeEscalation
  let s ← tokenOf env (w src.key)
  let d ← tokenOf env (w dst.key)
  ensure (s.frozen = false ∧ d.frozen = false) .token
  ensure (amount ≤ s.amount) .token
  ensure (s.mint = d.mint) .token
  ensure (¬ ((w auth.key).owner = env.tokenProgram ∧ (w auth.key).len = MULTISIG_LEN)) .token
  let s' ← transferAuth s auth.key amount
  if src.key = dst.key then pure w
  else do
    ensure (d.amount + amount < U64) .token
    let moved := if s.native = true then amount else 0
    ensure (moved ≤ (w src.key).lamports ∧ (w dst.key).lamports + moved < U64) .token
    let sa : Account := { w src.key with
      content := .token { s' with amount := s.amount - amount }, lamports := (w src.key).lamports - moved }
    let da : Account := { w dst.key with
      content := .token { d with amount := d.amount + amount }, lamports := (w dst.key).lamports + moved }
    pure ((w.set src.key sa).set dst.key da)

/-- `system_instruction::create_account` called with the seeds of `to` (utils.rs:53-70, initialize_mining.rs:33-41):
the target must be an unused system account, the payer a system account without data. -/
def createAccount (env : Env) (w : World) (payer to : AccountInfo) (len : Nat) (owner : Key) : Res World := do
  ensure (payer.isSigner = true ∧ payer.isWritable = true ∧ to.isWritable = true) .privilegeEscalation
  ensure (payer.key ≠ to.key) .system
  ensure ((w to.key).lamports = 0 ∧ (w to.key).len = 0 ∧ (w to.key).owner = env.systemProgram) .system
  ensure ((w payer.key).len = 0 ∧ (w payer.key).owner = env.systemProgram) .system
  ensure (env.rentMin len ≤ (w payer.key).lamports) .system
  let pa : Account := { w payer.key with lamports := (w payer.key).lamports - env.rentMin len }
  let ta : Account := { owner := owner, lamports := env.rentMin len, len := len, content := .zero }
  pure ((w.set payer.key pa).set to.key ta)

/-- `initialize_account` (utils.rs:73-87): `spl_token`'s `process_initialize_account` on a fresh account. -/
def initializeTokenAccount (env : Env) (w : World) (acc mint authority : Key) : Res World := do
  ensure ((w acc).owner = env.tokenProgram ∧ (w acc).content = .zero) .token
  ensure (mint = env.nativeMint ∨ ((w mint).owner = env.tokenProgram ∧ (w mint).content = .mint)) .token
  let t : TokenAcc := { mint := mint, owner := authority, amount := 0, frozen := false, delegate := none,
                        delegatedAmount := 0, native := decide (mint = env.nativeMint) }
  pure (w.set acc { w acc with content := .token t })

end Verif
