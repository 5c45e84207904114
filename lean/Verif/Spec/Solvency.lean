import Verif.Spec.Access
import Verif.Spec.Rewards
/-!
Specification vocabulary for solvency: sums over all minings of a pool, and what it means to run a pool in an orderly way.
-/

namespace Verif.Spec

/-- The account at `k` is a mining of the pool `P`, with data `m`. -/
def Member (env : Env) (w : World) (P k : Key) (m : Mining) : Prop := MiningAt env w k m ∧ m.rewardPool = P

/-- A quantity of the mining at `k` if it is a mining of the pool `P`, otherwise 0. -/
def ofMember (env : Env) (w : World) (P : Key) (g : Mining → Nat) (k : Key) : Nat :=
  if (w k).owner = env.programId then
    match (w k).content with
    | .mining m => if m.rewardPool = P then g m else 0
    | _ => 0
  else 0

/-- What all listed minings of the pool together are owed, in 1/10^16 token. -/
def owedTotal (env : Env) (w : World) (P : Key) (cum : List (Nat × Nat)) (ks : List Key) : Nat :=
  sumOver (ofMember env w P fun m => owed m cum) ks

/-- The stake all listed minings of the pool together earn with on the day starting at `d`. -/
def earningTotal (env : Env) (w : World) (P : Key) (d : Nat) (ks : List Key) : Nat :=
  sumOver (ofMember env w P fun m => earningOn m d) ks

/-- The stake that is not locked covers `n` tokens. -/
def Unlocked (n : Nat) (m : Mining) : Prop := n + total m.diffs ≤ m.share

/-- A mining that has never been used. -/
structure Fresh (m : Mining) : Prop where
  index : m.index = 0
  share : m.share = 0
  unclaimed : m.unclaimed = 0
  sfo : m.stakeFromOthers = 0
  diffs : m.diffs = []

/-- Orderly stake operations for mining data `m` of a pool with data `p` at time `now`:
* stake is added only when the last distribution is already visible (not in the first second of its day) and the
  mining's table has room for the expiry date;
* only unlocked stake is withdrawn, and slashed beyond its recorded expiration;
* a stake is extended only if it is flexible or has expired. -/
def OrderlyStake (caps : Caps) (now : Nat) (p : Pool) (m : Mining) : Ix → Prop
  | .depositMining _ l _ _ => Settled p.cumulative now ∧ ∀ k n, terms l = some (k, n) →
      HasRoom caps.mining (laterThan m.diffs (midnight now)) (midnight now + 86400 * n)
  | .withdrawMining a _ _ => Unlocked a m
  | .extendStake ol nl ts b _ _ _ => Settled p.cumulative now ∧ Unlocked b m ∧
      (∀ k n, terms nl = some (k, n) →
        HasRoom caps.mining (laterThan m.diffs (midnight now)) (midnight now + 86400 * n)) ∧
      (ol = .flex ∨ ∀ k n, terms ol = some (k, n) → midnight ts + 86400 * n ≤ now)
  | .slash _ n mu ex => Unlocked (if ex = none then mu else n) m
  | .changeDelegate _ _ => Settled p.cumulative now
  | _ => True

/-- The instruction takes only unlocked stake from the mining `m`. -/
def TakesUnlocked (m : Mining) : Ix → Prop
  | .withdrawMining a _ _ => Unlocked a m
  | .extendStake _ _ _ b _ _ _ => Unlocked b m
  | .slash _ n mu ex => Unlocked (if ex = none then mu else n) m
  | _ => True

/-- An event that does not take locked stake, and without type confusion. -/
def LeavesLocked (env : Env) (s : Chain) : Event → Prop
  | .ix accs i => NotPoolAsMining env s.world accs i ∧
      ∀ M m, miningArg accs i = some M → MiningAt env s.world M m → TakesUnlocked m i
  | _ => True

/-- Instructions that first raise the delegated stake of a mining without having brought it up to date. -/
def raisesDelegate : Ix → Bool
  | .depositMining .. | .changeDelegate .. => true
  | _ => false

/-- The instruction keeps the books of pool `P` (vault `V`) in order:
* operations for `P` are orderly, delegates are minings of `P`, and a delegate whose stake is raised by a deposit or a
  change of delegate has been brought up to date before;
* operations for other pools do not name a mining of `P` as old delegate;
* the vault is not the source of a fill. -/
structure OrderlyIx (env : Env) (P V : Key) (now : Nat) (w : World) (accs : List AccountInfo) (i : Ix) : Prop where
  stake : poolArg accs i = some P → ∀ M m p, miningArg accs i = some M → MiningAt env w M m → PoolAt env w P p →
    OrderlyStake env.caps now p m i
  delegate : poolArg accs i = some P → ∀ M D p, miningArg accs i = some M → delegateArg accs i = some D → D ≠ M →
    PoolAt env w P p → ∃ x, Member env w P D x ∧ (raisesDelegate i = true → x.index = lastIndex 0 p.cumulative)
  oldDelegate : poolArg accs i = some P → ∀ M D, miningArg accs i = some M → oldDelegateArg accs i = some D → D ≠ M →
    ∃ x, Member env w P D x
  otherPools : poolArg accs i ≠ some P → ∀ D, oldDelegateArg accs i = some D → ∀ x, ¬ Member env w P D x
  source : ∀ r e, i = .fillVault r e → accs[4]?.map (·.key) ≠ some V

/-- An orderly event: besides instructions, the pool and its vault are not left without lamports, and nobody takes tokens
out of the vault from outside. -/
def Orderly (env : Env) (P V : Key) (s : Chain) : Event → Prop
  | .ix accs i => NotPoolAsMining env s.world accs i ∧ OrderlyIx env P V s.now s.world accs i
  | .tick _ => True
  | .gc k => k ≠ P ∧ k ≠ V
  | .ext w' => balance s.world V ≤ balance w' V

/-- A claim as it should be made: the accounts `P T V M O A U K` are the pool, its reward mint, its vault, a mining of the
pool, the mining's owner and the pool's deposit authority (who both sign), a token account of the owner and the token
program.  Vault and receiving account are not frozen, hold the same token and together less than 2^64 of it, and the vault
still belongs to the deposit authority, who is not at the same time its SPL delegate and whose account is not an SPL
multisig (355 bytes, owned by the token program), because the program passes on no further signers.  All entries for an account that is
to be changed are writable. -/
structure ClaimReady (env : Env) (w : World) (accs : List AccountInfo) (P T V M O A U K : AccountInfo)
    (rest : List AccountInfo) (p : Pool) (m : Mining) (t u : TokenAcc) : Prop where
  accs_eq : accs = P :: T :: V :: M :: O :: A :: U :: K :: rest
  pool : PoolAt env w P.key p
  mint : T.key = p.rewardMint ∧ (w T.key).owner = env.tokenProgram
  vault : env.findVault P.key T.key = some (V.key, p.bump) ∧ TokenAt env w V.key t
  mining : Member env w P.key M.key m
  owner : O.key = m.owner ∧ O.isSigner = true
  authority : A.key = p.depositAuthority ∧ A.isSigner = true
  single : ¬ ((w A.key).owner = env.tokenProgram ∧ (w A.key).len = 355)
  receiver : TokenAt env w U.key u ∧ u.owner = O.key
  program : K.key = env.tokenProgram
  usable : t.frozen = false ∧ u.frozen = false ∧ t.native = false ∧ t.mint = u.mint ∧ t.owner = A.key ∧
    t.delegate ≠ some A.key ∧ t.amount + u.amount < 2 ^ 64 ∧ (w U.key).lamports < 2 ^ 64
  writable : ∀ a ∈ accs, a.key = V.key ∨ a.key = M.key ∨ a.key = U.key → a.isWritable = true

end Verif.Spec
