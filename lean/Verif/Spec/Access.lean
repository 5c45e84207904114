import Verif.Spec.Terms
/-!
Specification vocabulary for authority, isolation and conservation: which account of an instruction plays which role
(positions as documented in instruction.rs:16-169).
-/

namespace Verif.Spec

/-- Tokens held by the account at `k` (0 if it is not an account of the token program). -/
def tokens (env : Env) (w : World) (k : Key) : Nat :=
  if (w k).owner = env.tokenProgram then balance w k else 0

/-- The pool an instruction is executed for. -/
def poolArg (accs : List AccountInfo) : Ix → Option Key
  | .slash .. | .decreaseRewards .. => accs[1]?.map (·.key)
  | .closeMining => accs[4]?.map (·.key)
  | _ => accs[0]?.map (·.key)

/-- The mining an instruction is executed for. -/
def miningArg (accs : List AccountInfo) : Ix → Option Key
  | .depositMining .. | .withdrawMining .. | .extendStake .. | .changeDelegate .. | .initializeMining .. =>
    accs[1]?.map (·.key)
  | .slash .. | .decreaseRewards .. => accs[2]?.map (·.key)
  | .claim => accs[3]?.map (·.key)
  | .closeMining => accs[0]?.map (·.key)
  | _ => none

/-- The (new) delegate's mining. -/
def delegateArg (accs : List AccountInfo) : Ix → Option Key
  | .depositMining .. | .withdrawMining .. | .extendStake .. => accs[3]?.map (·.key)
  | .changeDelegate .. => accs[5]?.map (·.key)
  | _ => none

/-- The old delegate's mining. -/
def oldDelegateArg (accs : List AccountInfo) : Ix → Option Key
  | .changeDelegate .. => accs[4]?.map (·.key)
  | _ => none

/-- Who has to sign an instruction that changes the pool `p`; `none`: nobody may change an existing pool with it. -/
def poolSigner (p : Pool) : Ix → Option Key
  | .fillVault .. => some p.fillAuthority
  | .distributeRewards => some p.distributeAuthority
  | .depositMining .. | .withdrawMining .. | .extendStake .. | .slash .. | .changeDelegate .. => some p.depositAuthority
  | _ => none

/-- The stake the account at `k` earns with on the day starting at `x` (0 if it is not a mining). -/
def stakeAt (env : Env) (w : World) (x : Nat) (k : Key) : Nat :=
  if (w k).owner = env.programId then match (w k).content with | .mining m => earningOn m x | _ => 0 else 0

/-- The wallet named as (new) delegate. -/
def delegateWallet : Ix → Option Key
  | .depositMining _ _ _ d | .withdrawMining _ _ d | .extendStake _ _ _ _ _ _ d | .changeDelegate _ d => some d
  | _ => none

/-- The two account arguments that the program does not verify: ChangeDelegate's old delegate and CloseMining's pool.
The caller passes a mining of the pool as old delegate, and the mining's own pool when closing. -/
def HonestArgs (env : Env) (w : World) (accs : List AccountInfo) : Ix → Prop
  | .changeDelegate .. => ∀ a b m, accs[4]? = some a → accs[0]? = some b → MiningAt env w a.key m →
      m.accountType = 2 → m.rewardPool = b.key
  | .closeMining => ∀ a b m, accs[0]? = some a → accs[4]? = some b → MiningAt env w a.key m → m.rewardPool = b.key
  | _ => True

/-- Instructions that move lamports by themselves. -/
def movesLamports : Ix → Bool
  | .initializePool .. | .initializeMining .. | .closeMining => true
  | _ => false

/-- Instructions that move tokens. -/
def movesTokens : Ix → Bool
  | .fillVault .. | .claim => true
  | _ => false

end Verif.Spec
