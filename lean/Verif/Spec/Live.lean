import Verif.Spec.Solvency
/-!
Specification vocabulary for operations that must not be blocked: calls made with the right accounts.
-/

namespace Verif.Spec

/-- A distribution as it should be made: the pool, which is writable, and the signature of its distribute authority. -/
structure DistributeReady (env : Env) (w : World) (accs : List AccountInfo) (P B : AccountInfo)
    (rest : List AccountInfo) (p : Pool) : Prop where
  accs_eq : accs = P :: B :: rest
  pool : PoolAt env w P.key p
  authority : B.key = p.distributeAuthority ∧ B.isSigner = true
  writable : ∀ a ∈ accs, a.key = P.key → a.isWritable = true

/-- A deposit, withdrawal or extension as it should be made: `P M A D` are the pool, the staker's mining of this pool, the
pool's deposit authority (who signs) and the mining of the delegate (the staker's own mining for no delegate); `owner` and
`delegate` are the owners of the two minings.  All entries for an account that is to be changed are writable. -/
structure StakeReady (env : Env) (w : World) (accs : List AccountInfo) (P M A D : AccountInfo)
    (rest : List AccountInfo) (p : Pool) (m : Mining) (d : Option Mining) (owner delegate : Key) : Prop where
  accs_eq : accs = P :: M :: A :: D :: rest
  pool : PoolAt env w P.key p
  mining : Member env w P.key M.key m
  owner : owner = m.owner
  authority : A.key = p.depositAuthority ∧ A.isSigner = true
  delegate : (D.key = M.key ∧ d = none) ∨
    (D.key ≠ M.key ∧ ∃ x, d = some x ∧ Member env w P.key D.key x ∧ delegate = x.owner)
  writable : ∀ a ∈ accs, a.key = P.key ∨ a.key = M.key ∨ a.key = D.key → a.isWritable = true

/-- A change of delegate as it should be made: `P M A O X Y` are the pool, the staker's mining of this pool, the pool's
deposit authority and the staker (who both sign), and the minings of the old and the new delegate (the staker's own mining
for no delegate), which differ; `delegate` is the owner of the new one. -/
structure RedelegateReady (env : Env) (w : World) (accs : List AccountInfo) (P M A O X Y : AccountInfo)
    (rest : List AccountInfo) (p : Pool) (m : Mining) (od nd : Option Mining) (delegate : Key) : Prop where
  accs_eq : accs = P :: M :: A :: O :: X :: Y :: rest
  pool : PoolAt env w P.key p
  mining : Member env w P.key M.key m
  owner : O.key = m.owner ∧ O.isSigner = true
  authority : A.key = p.depositAuthority ∧ A.isSigner = true
  different : Y.key ≠ X.key
  old : (X.key = M.key ∧ od = none) ∨ (X.key ≠ M.key ∧ ∃ x, od = some x ∧ Member env w P.key X.key x)
  new : (Y.key = M.key ∧ nd = none) ∨
    (Y.key ≠ M.key ∧ ∃ x, nd = some x ∧ Member env w P.key Y.key x ∧ delegate = x.owner)
  writable : ∀ a ∈ accs, a.key = P.key ∨ a.key = M.key ∨ a.key = X.key ∨ a.key = Y.key → a.isWritable = true

/-- A filling of the vault as it should be made: `P T V F S K` are the pool, its reward mint, its vault, the pool's fill
authority (who signs and whose account is not an SPL multisig), a token account of theirs and the token program. -/
structure FillReady (env : Env) (w : World) (accs : List AccountInfo) (P T V F S K : AccountInfo)
    (rest : List AccountInfo) (p : Pool) (t u : TokenAcc) : Prop where
  accs_eq : accs = P :: T :: V :: F :: S :: K :: rest
  pool : PoolAt env w P.key p
  mint : T.key = p.rewardMint ∧ (w T.key).owner = env.tokenProgram
  vault : env.findVault P.key T.key = some (V.key, p.bump) ∧ TokenAt env w V.key u
  authority : F.key = p.fillAuthority ∧ F.isSigner = true ∧ F.key ≠ P.key
  single : ¬ ((w F.key).owner = env.tokenProgram ∧ (w F.key).len = 355)
  source : TokenAt env w S.key t ∧ t.owner = F.key ∧ t.delegate ≠ some F.key
  program : K.key = env.tokenProgram
  usable : t.frozen = false ∧ u.frozen = false ∧ t.native = false ∧ t.mint = u.mint ∧ t.amount + u.amount < 2 ^ 64 ∧
    (w V.key).lamports < 2 ^ 64
  writable : ∀ a ∈ accs, a.key = P.key ∨ a.key = V.key ∨ a.key = S.key → a.isWritable = true

/-- A closing of a mining as it should be made: `M O G A P` are the mining, its owner and the pool's deposit authority (who
both sign), a wallet that takes the rent, and the pool. -/
structure CloseReady (env : Env) (w : World) (accs : List AccountInfo) (M O G A P : AccountInfo)
    (rest : List AccountInfo) (p : Pool) (m : Mining) : Prop where
  accs_eq : accs = M :: O :: G :: A :: P :: rest
  pool : PoolAt env w P.key p
  mining : Member env w P.key M.key m
  owner : O.key = m.owner ∧ O.isSigner = true
  authority : A.key = p.depositAuthority ∧ A.isSigner = true
  target : (w G.key).owner = env.systemProgram ∧ (w G.key).lamports + (w M.key).lamports < 2 ^ 64
  writable : ∀ a ∈ accs, a.key = M.key ∨ a.key = G.key → a.isWritable = true

/-- A payer for a new account of `len` bytes: signs, and is a wallet with enough lamports. -/
structure PayerReady (env : Env) (w : World) (Y : AccountInfo) (len : Nat) : Prop where
  signed : Y.isSigner = true
  wallet : (w Y.key).owner = env.systemProgram ∧ (w Y.key).len = 0
  funds : env.rentMin len ≤ (w Y.key).lamports

/-- The creation of a mining as it should be made: `P M Y K` are the pool, the address derived for the staker and the pool,
a payer, and the system program. -/
structure CreateMiningReady (env : Env) (w : World) (accs : List AccountInfo) (P M Y K : AccountInfo)
    (rest : List AccountInfo) (p : Pool) (owner : Key) (bump : Nat) : Prop where
  accs_eq : accs = P :: M :: Y :: K :: rest
  pool : PoolAt env w P.key p
  mining : env.findMining owner P.key = some (M.key, bump)
  payer : PayerReady env w Y 1776
  program : K.key = env.systemProgram
  different : Y.key ≠ M.key
  writable : ∀ a ∈ accs, a.key = M.key ∨ a.key = Y.key → a.isWritable = true

/-- The creation of a pool as it should be made: `P T V Y A R K L` are a zeroed account of the program of the size of a
pool, a mint, the vault's derived address, a payer and the deposit authority (who both sign), the rent sysvar, the token
program and the system program. -/
structure CreatePoolReady (env : Env) (w : World) (accs : List AccountInfo) (P T V Y A R K L : AccountInfo)
    (rest : List AccountInfo) (bump : Nat) : Prop where
  accs_eq : accs = P :: T :: V :: Y :: A :: R :: K :: L :: rest
  pool : (w P.key).owner = env.programId ∧ (w P.key).len = 64480 ∧ (w P.key).content = .zero
  mint : (w T.key).owner = env.tokenProgram ∧ (w T.key).content = .mint
  vault : env.findVault P.key T.key = some (V.key, bump) ∧ V.key ≠ P.key
  payer : PayerReady env w Y 165
  authority : A.isSigner = true ∧ A.key ≠ P.key
  programs : R.key = env.rentSysvar ∧ K.key = env.tokenProgram ∧ L.key = env.systemProgram ∧ R.key ≠ P.key
  different : Y.key ≠ V.key ∧ T.key ≠ V.key
  writable : ∀ a ∈ accs, a.key = P.key ∨ a.key = V.key ∨ a.key = Y.key → a.isWritable = true

/-- Nothing is stored at the address and nobody has sent lamports to it. -/
def Unused (env : Env) (w : World) (k : Key) : Prop :=
  (w k).owner = env.systemProgram ∧ (w k).len = 0 ∧ (w k).content = .zero ∧ (w k).lamports = 0

end Verif.Spec
