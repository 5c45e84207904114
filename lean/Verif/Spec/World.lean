import Verif.Spec.Stake
import Verif.Model.Processor
/-!
Specification vocabulary about accounts, reachable states and sums over accounts.
-/

namespace Verif.Spec

/-- The account at `k` belongs to the program and holds the pool `p`. -/
def PoolAt (env : Env) (w : World) (k : Key) (p : Pool) : Prop :=
  (w k).owner = env.programId ∧ (w k).content = .pool p

/-- The account at `k` belongs to the program and holds the mining `m`. -/
def MiningAt (env : Env) (w : World) (k : Key) (m : Mining) : Prop :=
  (w k).owner = env.programId ∧ (w k).content = .mining m

/-- The account at `k` is the token account `t`. -/
def TokenAt (env : Env) (w : World) (k : Key) (t : TokenAcc) : Prop :=
  (w k).owner = env.tokenProgram ∧ (w k).content = .token t

/-- Token balance of an account, 0 if it is not a token account. -/
def balance (w : World) (k : Key) : Nat :=
  match (w k).content with
  | .token t => t.amount
  | _ => 0

/-- `k` signed the instruction. -/
def Signed (accs : List AccountInfo) (k : Key) : Prop := ∃ a ∈ accs, a.key = k ∧ a.isSigner = true

/-- Tables of a mining are ordered. -/
structure MiningOk (m : Mining) : Prop where
  sorted : Sorted m.diffs
  aligned : ∀ e ∈ m.diffs, e.1 % 86400 = 0

/-- What holds of the data of every pool at time `now`: ordered tables, a proper history that does not reach into the
future, an index not below any recorded one, an end of distribution at midnight. -/
structure PoolOk (now : Nat) (p : Pool) : Prop where
  sorted : Sorted p.diffs
  aligned : ∀ e ∈ p.diffs, e.1 % 86400 = 0
  history : History p.cumulative
  past : ∀ e ∈ p.cumulative, e.1 ≤ midnight now
  index : ∀ e ∈ p.cumulative, e.2 ≤ p.index
  ends : p.distributionEndsAt % 86400 = 0
  initialized : p.accountType = 1

/-- All pools and minings have tidy tables. -/
structure WorldOk (env : Env) (now : Nat) (w : World) : Prop where
  pools : ∀ k p, PoolAt env w k p → PoolOk now p
  minings : ∀ k m, MiningAt env w k m → MiningOk m

/-- Before the program was used: it owns no accounts except zeroed ones, and nothing exists at derived addresses. -/
structure Genesis (env : Env) (s : Chain) : Prop where
  owned : ∀ k, (s.world k).owner = env.programId → (s.world k).content = .zero ∧ ¬ env.IsPda k ∧ k ≠ 0
  pda : ∀ k, env.IsPda k → (s.world k).owner = env.systemProgram ∧ (s.world k).len = 0 ∧ (s.world k).content = .zero

/-- No pool account is passed where Claim, CloseMining and ChangeDelegate (old delegate) expect a mining account
(the program has no type check there).  Positions as documented in instruction.rs. -/
def NotPoolAsMining (env : Env) (w : World) (accs : List AccountInfo) : Ix → Prop
  | .claim => ∀ a, accs[3]? = some a → ∀ q, ¬ PoolAt env w a.key q
  | .closeMining => ∀ a, accs[0]? = some a → ∀ q, ¬ PoolAt env w a.key q
  | .changeDelegate _ _ => ∀ a, accs[4]? = some a → ∀ q, ¬ PoolAt env w a.key q
  | _ => True

/-- An event in which no pool is passed as a mining. -/
def CleanEvent (env : Env) (s : Chain) : Event → Prop
  | .ix accs i => NotPoolAsMining env s.world accs i
  | _ => True

/-- Histories in which every event satisfies `C` (and is possible). -/
inductive RunsWith (env : Env) (C : Chain → Event → Prop) : Chain → List Event → Chain → Prop
  | nil (s : Chain) : RunsWith env C s [] s
  | cons {s s' : Chain} {e : Event} {es : List Event} :
      e.Valid env s → C s e → RunsWith env C (s.apply env e) es s' → RunsWith env C s (e :: es) s'

/-- States reachable from a state before first use by events without type confusion. -/
def Reachable (env : Env) (s : Chain) : Prop :=
  ∃ s0 es, Genesis env s0 ∧ RunsWith env (CleanEvent env) s0 es s

/-- Sum of a quantity over the listed accounts. -/
def sumOver (f : Key → Nat) (ks : List Key) : Nat := (ks.map f).sum

end Verif.Spec

namespace Verif.Spec

/-- An initialized mining at its derived address. -/
structure InitMining (env : Env) (k : Key) (len : Nat) (m : Mining) : Prop where
  len : len = MINING_LEN
  type : m.accountType = 2
  addr : env.miningAddr m.owner m.rewardPool m.bump = some k
  pool : m.rewardPool ≠ 0
  mint : m.rewardMint = 0

/-- An uninitialized mining: no owner and no pool. -/
structure BlankMining (m : Mining) : Prop where
  type : m.accountType = 0
  pool : m.rewardPool = 0
  owner : m.owner = 0
  mint : m.rewardMint = 0

/-- A pool account. -/
structure GoodPool (env : Env) (now : Nat) (k : Key) (len : Nat) (p : Pool) : Prop where
  len : len = POOL_LEN
  notPda : ¬ env.IsPda k
  ok : PoolOk now p
  vault : ∃ v, env.findVault k p.rewardMint = some (v, p.bump)

/-- What holds of every account in a reachable state. -/
structure AccOk (env : Env) (now : Nat) (k : Key) (a : Account) : Prop where
  pda : env.IsPda k → (a.owner = env.programId ∧ a.len = MINING_LEN) ∨ a.owner = env.tokenProgram ∨
    a.owner = env.systemProgram
  nonzero : a.owner = env.programId → k ≠ 0
  content : a.owner = env.programId → a.content = .zero ∨
    (∃ p, a.content = .pool p ∧ GoodPool env now k a.len p) ∨
    (∃ m, a.content = .mining m ∧ MiningOk m ∧ (InitMining env k a.len m ∨ BlankMining m))

/-- Well-formed states; `Props.Reach` proves that every reachable state is well-formed. -/
def Wf (env : Env) (now : Nat) (w : World) : Prop := ∀ k, AccOk env now k (w k)

end Verif.Spec
