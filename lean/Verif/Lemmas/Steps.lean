import Verif.Lemmas.Transfer
/-!
The effect of every successful instruction on the accounts, in one inductive predicate.
-/

namespace Verif

open Spec

variable {env : Env}

/-- The pool method behind a stake instruction. -/
def StakeOp (caps : Caps) (now : Nat) (p : Pool) (m : Mining) (d : Option Mining) (p' : Pool) (m' : Mining)
    (d' : Option Mining) : Ix → Prop
  | .depositMining a l _ _ => p.deposit caps now m a l d = .ok (p', m', d')
  | .withdrawMining a _ _ => p.withdraw now m a d = .ok (p', m', d')
  | .extendStake ol nl ts b a _ _ => p.extend caps now m ol nl ts b a d = .ok (p', m', d')
  | .slash _ n mu ex => p.slash now m n mu ex = .ok (p', m') ∧ d = none ∧ d' = none
  | _ => False

/-- Positions of pool, mining, deposit authority and delegate in the account list of a stake instruction. -/
def StakeAccs (accs : List AccountInfo) (P M A D : AccountInfo) : Ix → Prop
  | .slash _ _ _ _ => D = M ∧ ∃ rest, accs = A :: P :: M :: rest
  | _ => ∃ rest, accs = P :: M :: A :: D :: rest

/-- The owner named by a stake instruction. -/
def Ix.ownerArg : Ix → Key
  | .depositMining _ _ o _ => o
  | .withdrawMining _ o _ => o
  | .extendStake _ _ _ _ _ o _ => o
  | .slash o _ _ _ => o
  | .decreaseRewards o _ => o
  | _ => 0

/-- The pool and the mining an instruction works on have been checked. -/
structure Checked (env : Env) (now : Nat) (w : World) (P M A : AccountInfo) (owner : Key) (p : Pool) (m : Mining) :
    Prop where
  good : GoodPool env now P.key (w P.key).len p
  init : InitMining env M.key (w M.key).len m
  miningOk : MiningOk m
  signed : A.isSigner = true
  auth : p.depositAuthority = A.key
  authNe : A.key ≠ 0
  addr : env.miningAddr owner P.key m.bump = some M.key
  owner' : m.owner = owner
  inPool : m.rewardPool = P.key

/-- A delegate mining that was checked against the pool's address. -/
structure DelChecked (env : Env) (w : World) (P D : Key) (x : Mining) : Prop where
  ok : MiningOk x
  addr : ∃ o, env.miningAddr o P x.bump = some D
  kind : (MiningAt env w D x ∧ InitMining env D (w D).len x) ∨ BlankMining x

/-- What writing pool or mining data can do to an account: owner, lamports and length stay, a pool stays a pool, a mining
stays a mining, zeroed data can only become an uninitialized mining. -/
def Shell (env : Env) (a a' : Account) : Prop :=
  a'.owner = a.owner ∧ a'.lamports = a.lamports ∧ a'.len = a.len ∧
    (a'.content = a.content ∨ a.owner = env.programId ∧
      ((∃ p p', a.content = .pool p ∧ a'.content = .pool p') ∨
       ∃ m', a'.content = .mining m' ∧ ((∃ m, a.content = .mining m) ∨ (a.content = .zero ∧ BlankMining m'))))

theorem Shell.refl (a : Account) : Shell env a a := ⟨rfl, rfl, rfl, Or.inl rfl⟩

theorem shell_putPool {w : World} {k : Key} {p : Pool} (h : PoolAt env w k p) (p' : Pool) (j : Key) :
    Shell env (w j) (putPool w k p' j) := by
  by_cases e : j = k
  · subst e
    unfold putPool; rw [world_set_same]
    exact ⟨rfl, rfl, rfl, Or.inr ⟨h.1, Or.inl ⟨p, p', h.2, rfl⟩⟩⟩
  · rw [putPool_ne _ _ e]; exact .refl _

theorem shell_putMining {w : World} {k : Key} {m' : Mining} (ho : (w k).owner = env.programId)
    (hn : (∃ m, (w k).content = .mining m) ∨ ((w k).content = .zero ∧ BlankMining m')) (j : Key) :
    Shell env (w j) (putMining env w k m' j) := by
  by_cases e : j = k
  · subst e
    unfold putMining; rw [world_set_same]; unfold storeMining
    split
    · exact .refl _
    · split
      · rename_i q hq
        rcases hn with ⟨m, hm⟩ | ⟨hm, _⟩
        · rw [hq] at hm; cases hm
        · rw [hq] at hm; cases hm
      · exact ⟨rfl, rfl, rfl, Or.inr ⟨ho, Or.inr ⟨m', rfl, hn⟩⟩⟩
  · rw [putMining_ne _ _ e]; exact .refl _

/-- Changes at different accounts. -/
theorem shell_split {w w1 w' : World} {k : Key} (h1 : ∀ j, Shell env (w j) (w1 j)) (hk : w1 k = w k)
    (h2 : ∀ j, Shell env (w1 j) (w' j)) (hf : ∀ j, j ≠ k → w' j = w1 j) (j : Key) : Shell env (w j) (w' j) := by
  by_cases e : j = k
  · subst e; have := h2 j; rw [hk] at this; exact this
  · rw [hf j e]; exact h1 j

/-- What may be written to a delegate's account. -/
def Writable (env : Env) (w : World) (k : Key) (d' : Option Mining) : Prop :=
  ∀ m', d' = some m' → (w k).owner = env.programId ∧
    ((∃ m, (w k).content = .mining m) ∨ ((w k).content = .zero ∧ BlankMining m'))

/-- Writing back pool, mining and delegate. -/
theorem shell_stake {w : World} {pk mk dk : Key} {p : Pool} {m : Mining} (hp : PoolAt env w pk p)
    (hm : MiningAt env w mk m) {d' : Option Mining} (hne : mk ≠ pk)
    (hd : d' = none ∨ dk ≠ mk ∧ dk ≠ pk) (hd2 : Writable env w dk d') (p' : Pool) (m' : Mining) (j : Key) :
    Shell env (w j) (putDelegate env (putMining env (putPool w pk p') mk m') dk d' j) := by
  have h1 := shell_putPool hp p'
  have e1 : putPool w pk p' mk = w mk := putPool_ne _ _ hne
  have h2 : ∀ j, Shell env (putPool w pk p' j) (putMining env (putPool w pk p') mk m' j) :=
    shell_putMining (by rw [e1]; exact hm.1) (Or.inl ⟨m, by rw [e1]; exact hm.2⟩)
  have h12 := shell_split h1 e1 h2 (fun j hj => putMining_ne _ _ hj)
  cases d' with
  | none => exact h12 j
  | some x' =>
    rcases hd with hd | ⟨h3, h4⟩
    · cases hd
    · have e2 : putMining env (putPool w pk p') mk m' dk = w dk := by rw [putMining_ne _ _ h3, putPool_ne _ _ h4]
      obtain ⟨h5, h6⟩ := hd2 x' rfl
      exact shell_split h12 e2 (shell_putMining (by rw [e2]; exact h5) (by rw [e2]; exact h6))
        (fun j hj => putMining_ne _ _ hj) j

theorem writable_of {now : Nat} {w : World} (hw : Wf env now w) {k : Key} {x : Mining} {d' : Option Mining}
    (ho : (w k).owner = env.programId) (hv : viewMining env (w k).content = some x) (hn : ∀ q, ¬ PoolAt env w k q)
    (hs : SameDelegate (some x) d') : Writable env w k d' := by
  rintro m' rfl
  refine ⟨ho, ?_⟩
  rcases (hw k).content ho with e | ⟨q, e, -⟩ | ⟨m, e, -⟩
  · refine Or.inr ⟨e, ?_⟩
    rw [e] at hv
    simp only [viewMining, Option.some.injEq] at hv
    subst hv
    exact ⟨hs.1.5, hs.1.1, hs.1.2, hs.1.3⟩
  · exact absurd ⟨ho, e⟩ (hn q)
  · exact Or.inl ⟨m, e⟩

/-- The delegate account was read as `d` and holds `d'` afterwards, if it holds a mining at all. -/
def DelWritten (env : Env) (w w' : World) (dk : Key) (d d' : Option Mining) : Prop :=
  ∀ x', d' = some x' → (∃ x, d = some x ∧ (w dk).owner = env.programId ∧ viewMining env (w dk).content = some x) ∧
    ∀ y, MiningAt env w' dk y → y = x'

theorem putMining_written {w : World} {k : Key} {m' y : Mining} (h : MiningAt env (putMining env w k m') k y) :
    y = m' := by
  unfold MiningAt putMining storeMining at h
  rw [world_set_same] at h
  obtain ⟨-, h⟩ := h
  split at h
  · rename_i hv
    rw [h] at hv
    simpa [viewMining] using hv
  · split at h
    · cases h
    · cases h; rfl

/-- One successful instruction. -/
inductive Step (env : Env) (now : Nat) (w w' : World) (accs : List AccountInfo) : Ix → Option Nat → Prop
  | stake {i : Ix} {P M A D : AccountInfo} {p p' : Pool} {m m' : Mining} {d d' : Option Mining}
      (accs_eq : StakeAccs accs P M A D i) (op : StakeOp env.caps now p m d p' m' d' i)
      (chk : Checked env now w P M A i.ownerArg p m)
      (del : ∀ x, d = some x → DelChecked env w P.key D.key x)
      (quiet : Quiet now p p') (same : SameMining m m') (sfo : m'.stakeFromOthers = m.stakeFromOthers)
      (ok' : MiningOk m') (sameDel : SameDelegate d d')
      (eff : StakeEffect env w w' P.key M.key D.key p p' m m' d d') (shell : ∀ k, Shell env (w k) (w' k))
      (written : DelWritten env w w' D.key d d') :
      Step env now w w' accs i none
  | redelegate {a : Nat} {nd : Key} {P M A O Old New : AccountInfo} {rest : List AccountInfo} {p p' : Pool}
      {m m' : Mining} {od od' dn dn' : Option Mining}
      (accs_eq : accs = P :: M :: A :: O :: Old :: New :: rest) (signed : O.isSigner = true)
      (op : p.changeDelegate now m dn od a = .ok (p', m', dn', od'))
      (chk : Checked env now w P M A O.key p m)
      (newDel : ∀ x, dn = some x → DelChecked env w P.key New.key x)
      (oldOk : ∀ x, od = some x → MiningOk x)
      (oldAt : ∀ x, od = some x → (MiningAt env w Old.key x ∧ InitMining env Old.key (w Old.key).len x) ∨ BlankMining x)
      (ne : New.key ≠ Old.key)
      (quiet : Quiet now p p') (same : SameMining m m') (sfo : m'.stakeFromOthers = m.stakeFromOthers)
      (ok' : MiningOk m') (sameNew : SameDelegate dn dn') (sameOld : SameDelegate od od')
      (neP : M.key ≠ P.key)
      (eff : RedelegateEffect env w w' P.key M.key Old.key New.key p p' m m' od od' dn dn')
      (shell : ∀ k, Shell env (w k) (w' k)) (writtenOld : DelWritten env w w' Old.key od od')
      (writtenNew : DelWritten env w w' New.key dn dn') :
      Step env now w w' accs (.changeDelegate a nd) none
  | decrease {o : Key} {n : Nat} {A P M : AccountInfo} {rest : List AccountInfo} {p : Pool} {m m' : Mining}
      (accs_eq : accs = A :: P :: M :: rest) (chk : Checked env now w P M A o p m) (pool : PoolAt env w P.key p)
      (op : m.decreaseRewards n = .ok m') (mining : MiningAt env w M.key m) (mining' : MiningAt env w' M.key m')
      (same : SameMining m m') (ok' : MiningOk m') (sfo : m'.stakeFromOthers = m.stakeFromOthers)
      (frame : ∀ k, k ≠ M.key → w' k = w k) (shell : ∀ k, Shell env (w k) (w' k)) :
      Step env now w w' accs (.decreaseRewards o n) none
  | claim {P T V M O A U K : AccountInfo} {rest : List AccountInfo} {p : Pool} {m m1 : Mining} {n : Nat}
      (accs_eq : accs = P :: T :: V :: M :: O :: A :: U :: K :: rest) (signedO : O.isSigner = true)
      (signedA : A.isSigner = true)
      (eff : ClaimEffect env now w w' P.key T.key V.key M.key O.key A.key U.key p m m1 n) :
      Step env now w w' accs .claim (some n)
  | distribute {P B : AccountInfo} {rest : List AccountInfo} {p p' : Pool} {r : Nat}
      (accs_eq : accs = P :: B :: rest) (signed : B.isSigner = true) (auth : p.distributeAuthority = B.key)
      (good : GoodPool env now P.key (w P.key).len p) (pool : PoolAt env w P.key p) (pool' : PoolAt env w' P.key p')
      (amount : p.rewardsToDistribute now = .ok r) (op : p.distribute env.caps now r = .ok p')
      (same : SamePool p p') (ok' : PoolOk now p') (frame : ∀ k, k ≠ P.key → w' k = w k)
      (shell : ∀ k, Shell env (w k) (w' k)) :
      Step env now w w' accs .distributeRewards none
  | fill {r e : Nat} {P T V F S K : AccountInfo} {rest : List AccountInfo} {p : Pool} {w1 : World}
      (accs_eq : accs = P :: T :: V :: F :: S :: K :: rest) (signed : F.isSigner = true)
      (auth : p.fillAuthority = F.key) (good : GoodPool env now P.key (w P.key).len p) (pool : PoolAt env w P.key p)
      (vault : env.vaultAddr P.key T.key p.bump = some V.key) (nonzero : r ≠ 0) (future : bod now ≤ bod e)
      (later : p.distributionEndsAt ≤ bod e) (endBound : bod e < U64) (bound : p.tokensAvailable + r < U64)
      (pool' : PoolAt env w' P.key { p with distributionEndsAt := bod e, tokensAvailable := p.tokensAvailable + r })
      (w1_frame : ∀ k, k ≠ P.key → w1 k = w k)
      (transfer : TransferEffect env w1 w' S.key V.key F.key r)
      (frame : ∀ k, k ≠ P.key → k ≠ S.key → k ≠ V.key → w' k = w k)
      (neS : S.key ≠ P.key) (neV : V.key ≠ P.key) (shell : ∀ k, Shell env (w k) (w1 k)) :
      Step env now w w' accs (.fillVault r e) none
  | close {M O G A P : AccountInfo} {rest : List AccountInfo} {p : Pool} {m m1 : Mining}
      (accs_eq : accs = M :: O :: G :: A :: P :: rest) (signedO : O.isSigner = true) (signedA : A.isSigner = true)
      (good : GoodPool env now P.key (w P.key).len p) (pool : PoolAt env w P.key p)
      (auth : p.depositAuthority = A.key)
      (mining : MiningAt env w M.key m) (init : InitMining env M.key (w M.key).len m) (miningOk : MiningOk m)
      (owner : m.owner = O.key)
      (refreshed : m.refreshRewards now p.cumulative = .ok m1) (sfo : m1.stakeFromOthers = 0) (paid : m1.unclaimed = 0)
      (target : (w G.key).owner = env.systemProgram)
      (closed : w' M.key = { w M.key with lamports := 0, content := .zero })
      (credited : w' G.key = { w G.key with lamports := (w G.key).lamports + (w M.key).lamports })
      (frame : ∀ k, k ≠ M.key → k ≠ G.key → w' k = w k) (ne : M.key ≠ P.key) (neG : G.key ≠ M.key) :
      Step env now w w' accs .closeMining none
  | initPool {f d : Key} {P T V Y A R K S : AccountInfo} {rest : List AccountInfo} {bump : Nat}
      (accs_eq : accs = P :: T :: V :: Y :: A :: R :: K :: S :: rest) (signedY : Y.isSigner = true)
      (signedA : A.isSigner = true) (owned : (w P.key).owner = env.programId) (len : (w P.key).len = POOL_LEN)
      (fresh : (w P.key).content = .zero ∨ ∃ m, (w P.key).content = .mining m ∧ BlankMining m)
      (notPda : ¬ env.IsPda P.key)
      (vault : env.findVault P.key T.key = some (V.key, bump))
      (pool' : w' P.key = { w P.key with content := .pool (Pool.init bump A.key d f T.key) })
      (vaultBefore : (w V.key).lamports = 0 ∧ (w V.key).len = 0 ∧ (w V.key).owner = env.systemProgram)
      (vault' : w' V.key = Account.mk env.tokenProgram (env.rentMin TOKEN_LEN) TOKEN_LEN
        (Content.token (TokenAcc.mk T.key A.key 0 false none 0 (decide (T.key = env.nativeMint)))))
      (payer : (w Y.key).len = 0 ∧ (w Y.key).owner = env.systemProgram ∧ env.rentMin TOKEN_LEN ≤ (w Y.key).lamports)
      (payer' : w' Y.key = { w Y.key with lamports := (w Y.key).lamports - env.rentMin TOKEN_LEN })
      (frame : ∀ k, k ≠ P.key → k ≠ V.key → k ≠ Y.key → w' k = w k)
      (neVP : V.key ≠ P.key) (neYP : Y.key ≠ P.key) (neYV : Y.key ≠ V.key) :
      Step env now w w' accs (.initializePool f d) none
  | initMining {o : Key} {P M Y S : AccountInfo} {rest : List AccountInfo} {bump : Nat}
      (accs_eq : accs = P :: M :: Y :: S :: rest) (signedY : Y.isSigner = true)
      (owned : (w P.key).owner = env.programId) (addr : env.findMining o P.key = some (M.key, bump))
      (before : (w M.key).lamports = 0 ∧ (w M.key).len = 0 ∧ (w M.key).owner = env.systemProgram)
      (mining' : w' M.key = Account.mk env.programId (env.rentMin MINING_LEN) MINING_LEN
        (Content.mining (Mining.init P.key o bump)))
      (payer : (w Y.key).len = 0 ∧ (w Y.key).owner = env.systemProgram ∧ env.rentMin MINING_LEN ≤ (w Y.key).lamports)
      (payer' : w' Y.key = { w Y.key with lamports := (w Y.key).lamports - env.rentMin MINING_LEN })
      (frame : ∀ k, k ≠ M.key → k ≠ Y.key → w' k = w k) (ne : Y.key ≠ M.key) (neP : M.key ≠ P.key) :
      Step env now w w' accs (.initializeMining o) none

theorem checked_of {now : Nat} {w : World} (hw : Wf env now w) {P M A : AccountInfo} {owner : Key} {p : Pool}
    {m : Mining} (hp : (w P.key).owner = env.programId) (hm : (w M.key).owner = env.programId)
    (hs : A.isSigner = true) (ha : A.key ≠ 0) (hl : PoolAndMining env w owner M.key P.key A.key p m) :
    Checked env now w P M A owner p m := by
  obtain ⟨_, hg⟩ := pool_slot (hw P.key) hp hl.plen hl.pview ha (Or.inl hl.auth)
  obtain ⟨h1, _, h2⟩ := mining_slot hw hm hp hl
  exact ⟨hg, h2, h1, hs, hl.auth.symm, ha, hl.addr, hl.owner, hl.pool⟩

theorem delChecked_of {now : Nat} {w : World} (hw : Wf env now w) {dk dl pk : Key} {x : Mining}
    (ho : (w dk).owner = env.programId) (hd : DelegateOk env w dk dl pk x) : DelChecked env w pk dk x := by
  obtain ⟨h1, h2⟩ := delegate_slot hw ho hd
  obtain ⟨_, h3⟩ := mining_view (hw dk) ho hd.view h2
  refine ⟨h1, ⟨dl, hd.addr⟩, ?_⟩
  rcases h3 with ⟨h3, h4⟩ | ⟨h3, _⟩
  · exact Or.inl ⟨⟨ho, h3⟩, h4⟩
  · exact Or.inr h3

theorem StakeCall.checked {now : Nat} {w : World} (hw : Wf env now w) {accs : List AccountInfo} {owner delegate : Key}
    {pool mining dep del : AccountInfo} {p : Pool} {m : Mining} {d : Option Mining}
    (hc : StakeCall env w accs owner delegate pool mining dep del p m d) (hs : RealSigners accs) :
    Checked env now w pool mining dep owner p m ∧ ∀ x, d = some x → DelChecked env w pool.key del.key x := by
  obtain ⟨rest, hacc⟩ := hc.accs_eq
  refine ⟨checked_of hw hc.pool_owned hc.mining_owned hc.signed (hs dep (by rw [hacc]; simp) hc.signed) hc.loaded, ?_⟩
  rintro x rfl
  rcases hc.delegate with ⟨_, h⟩ | ⟨_, y, h1, h2⟩
  · cases h
  · cases h1; exact delChecked_of hw hc.del_owned h2

theorem step_stakeCall {now : Nat} {w : World} (hw : Wf env now w) {accs : List AccountInfo} {owner delegate : Key}
    {P M A D : AccountInfo} {p p' : Pool} {m m' : Mining} {d d' : Option Mining}
    (hc : StakeCall env w accs owner delegate P M A D p m d) (hs : RealSigners accs)
    {i : Ix} (hi : i.ownerArg = owner) (ha : StakeAccs accs P M A D i)
    (op : StakeOp env.caps now p m d p' m' d' i)
    (h : PoolOk now p → MiningOk m → (∀ x, d = some x → MiningOk x) → Quiet now p p' ∧ SameMining m m' ∧ MiningOk m' ∧
      m'.stakeFromOthers = m.stakeFromOthers ∧ SameDelegate d d') :
    Step env now w (putDelegate env (putMining env (putPool w P.key p') M.key m') D.key d') accs i none := by
  obtain ⟨c1, c2⟩ := hc.checked hw hs
  obtain ⟨q, s, o, f, sd⟩ := h c1.good.ok c1.miningOk (fun x hx => (c2 x hx).ok)
  obtain ⟨-, -, -, he⟩ := stakeCall_world (p' := p') (m' := m') (d' := d') hw hc hs sd
  refine .stake ha op (by rw [hi]; exact c1) c2 q s f o sd he (shell_stake he.pool he.mining he.ne ?_ ?_ p' m') ?_
  · rcases he.delegate with ⟨-, -, h1⟩ | ⟨h1, h2, -⟩
    · exact Or.inl h1
    · exact Or.inr ⟨h1, h2⟩
  · rcases hc.delegate with ⟨_, h1⟩ | ⟨_, y, h1, h2⟩
    · subst h1
      cases d' with
      | none => intro _ h; cases h
      | some _ => exact sd.elim
    · subst h1
      exact writable_of hw hc.del_owned h2.view (fun q hq => (delegate_slot hw hc.del_owned h2).2 q hq.2) sd
  · rintro x' rfl
    rcases hc.delegate with ⟨_, h1⟩ | ⟨_, y, h1, h2⟩
    · subst h1; exact sd.elim
    · exact ⟨⟨y, h1, hc.del_owned, h2.view⟩, fun y hy => putMining_written hy⟩

theorem step_of_exec {now : Nat} {w w' : World} {accs : List AccountInfo} {i : Ix} {ret : Option Nat}
    (hw : Wf env now w) (hs : RealSigners accs) (hclean : NotPoolAsMining env w accs i)
    (h : exec env now w accs i = .ok (w', ret)) : Step env now w w' accs i ret := by
  rw [exec_ok] at h
  obtain ⟨h, -⟩ := h
  cases i with
  | initializePool f d =>
    simp only [process, res_bind_ok, res_pure_ok, Prod.mk.injEq] at h
    obtain ⟨w1, h, rfl, rfl⟩ := h
    obtain ⟨P, T, V, Y, A, R, K, S, rest, p, bump, wa, wb, rfl, h1, h2, h3, h4, h5, h6, h7, h8,
      h9, h10, h11, h12, h13, h14, h15, h16, rfl⟩ := processInitializePool_ok h
    have hpda : ¬ env.IsPda P.key := by
      intro hp
      rcases (hw P.key).pda hp with ⟨_, e⟩ | e | e
      · have := poolLen_gt; omega
      · exact env.program_ne_token (h1.symm.trans e)
      · exact env.program_ne_system (h1.symm.trans e)
    have hfresh : (w P.key).content = .zero ∨ ∃ m, (w P.key).content = .mining m ∧ BlankMining m := by
      rcases (hw P.key).content h1 with e | ⟨q, e, g⟩ | ⟨m, e, _, g | g⟩
      · exact Or.inl e
      · rw [e] at h10
        simp only [viewPool, Option.some.injEq] at h10
        subst h10
        exact absurd (by unfold Pool.isInitialized; rw [g.ok.initialized]; decide) h11
      · have := g.len; have := poolLen_gt; omega
      · exact Or.inr ⟨m, e, g⟩
    rw [createAccount_ok] at h14
    obtain ⟨_, c1, c2, c3, c4, rfl⟩ := h14
    rw [initializeTokenAccount_ok] at h16
    obtain ⟨_, _, rfl⟩ := h16
    refine .initPool (bump := bump) rfl h4 h5 h1 h9 hfresh hpda h12 ?_ c2 ?_ ⟨c3.1, c3.2, c4⟩ ?_ ?_ h13.2 h13.1 c1
    · unfold putPool
      rw [world_set_same, storePool, world_set_ne _ _ (Ne.symm h13.2), world_set_ne _ _ (Ne.symm h13.2),
        world_set_ne _ _ (Ne.symm h13.1)]
    · rw [putPool_ne _ _ h13.2, world_set_same, world_set_same]
    · rw [putPool_ne _ _ h13.1, world_set_ne _ _ c1, world_set_ne _ _ c1, world_set_same]
    · intro k k1 k2 k3
      rw [putPool_ne _ _ k1, world_set_ne _ _ k2, world_set_ne _ _ k2, world_set_ne _ _ k3]
  | fillVault r e =>
    simp only [process, res_bind_ok, res_pure_ok, Prod.mk.injEq] at h
    obtain ⟨w1, h, rfl, rfl⟩ := h
    obtain ⟨P, T, V, F, S, K, rest, p, rfl, h1, h2, h3, h4, h5, h6, h7, h8, h9, h10, h11, h12, h13,
      h14, h15, h16, h17⟩ := processFillVault_ok h
    have hf : F.key ≠ 0 := hs F (by simp) h4
    obtain ⟨g1, g2⟩ := pool_slot (hw P.key) h1 h8 h9 hf (Or.inr (Or.inr h10))
    have te := transfer_effect h17
    refine .fill (K := K) rfl h4 h10.symm g2 ⟨h1, g1⟩ h11 h7 h12 h13 h14 h15 ?_ (fun k hk => putPool_ne _ _ hk) te ?_ h16.1 h16.2.1
      (shell_putPool ⟨h1, g1⟩ _)
    · exact (poolAt_congr (te.frame P.key (Ne.symm h16.1) (Ne.symm h16.2.1))).mpr (putPool_at h1 _)
    · intro k k1 k2 k3
      rw [te.frame k k2 k3, putPool_ne _ _ k1]
  | initializeMining o =>
    simp only [process, res_bind_ok, res_pure_ok, Prod.mk.injEq] at h
    obtain ⟨w1, h, rfl, rfl⟩ := h
    obtain ⟨P, M, Y, S, rest, bump, wa, rfl, h1, h2, h3, h4, h5, h6, rfl⟩ := processInitializeMining_ok h
    rw [createAccount_ok] at h6
    obtain ⟨_, c1, c2, c3, c4, rfl⟩ := h6
    have hne : M.key ≠ P.key := by
      intro e; rw [e, h1] at c2; exact env.program_ne_system c2.2.2
    refine .initMining (S := S) rfl h3 h1 h5 c2 ?_ ⟨c3.1, c3.2, c4⟩ ?_ ?_ c1 hne
    · unfold putMining
      rw [world_set_same, world_set_same, storeMining]
      rw [if_neg]
      simp [viewMining, Mining.init, Mining.zero]
    · rw [putMining_ne _ _ c1, world_set_ne _ _ c1, world_set_same]
    · intro k k1 k2
      rw [putMining_ne _ _ k1, world_set_ne _ _ k1, world_set_ne _ _ k2]
  | depositMining a l o dl =>
    simp only [process, res_bind_ok, res_pure_ok, Prod.mk.injEq] at h
    obtain ⟨w1, h, rfl, rfl⟩ := h
    obtain ⟨P, M, A, D, p, m, d, p', m', d', hc, hd, rfl⟩ := processDepositMining_ok h
    exact step_stakeCall hw hc hs rfl hc.accs_eq hd (fun a b c => deposit_same a b c hd)
  | withdrawMining a o dl =>
    simp only [process, res_bind_ok, res_pure_ok, Prod.mk.injEq] at h
    obtain ⟨w1, h, rfl, rfl⟩ := h
    obtain ⟨P, M, A, D, p, m, d, p', m', d', hc, hd, rfl⟩ := processWithdrawMining_ok h
    exact step_stakeCall hw hc hs rfl hc.accs_eq hd (fun a b c => withdraw_same a b c hd)
  | extendStake ol nl ts b a o dl =>
    simp only [process, res_bind_ok, res_pure_ok, Prod.mk.injEq] at h
    obtain ⟨w1, h, rfl, rfl⟩ := h
    obtain ⟨P, M, A, D, p, m, d, p', m', d', hc, hd, rfl⟩ := processExtendStake_ok h
    exact step_stakeCall hw hc hs rfl hc.accs_eq hd (fun a b c => extend_same a b c hd)
  | claim =>
    simp only [process, res_bind_ok, res_pure_ok, Prod.mk.injEq, Prod.exists] at h
    obtain ⟨w1, n, h, rfl, rfl⟩ := h
    obtain ⟨P, T, V, M, O, A, U, K, rest, p, m, m1, h1, h2, h3, h4⟩ := claim_world hw hs hclean h
    exact .claim h1 h2 h3 h4
  | distributeRewards =>
    simp only [process, res_bind_ok, res_pure_ok, Prod.mk.injEq] at h
    obtain ⟨w1, h, rfl, rfl⟩ := h
    obtain ⟨P, B, rest, p, p', r, rfl, h1, h2, h3, h4, h5, h6, h7, rfl⟩ := processDistributeRewards_ok h
    have hd : B.key ≠ 0 := hs B (by simp) h2
    obtain ⟨g1, g2⟩ := pool_slot (hw P.key) h1 h3 h4 hd (Or.inr (Or.inl h6))
    obtain ⟨s1, s2⟩ := distribute_same g2.ok h7
    exact .distribute rfl h2 h6.symm g2 ⟨h1, g1⟩ (putPool_at h1 _) h5 h7 s1 s2 (fun k hk => putPool_ne _ _ hk)
      (shell_putPool ⟨h1, g1⟩ _)
  | closeMining =>
    simp only [process, res_bind_ok, res_pure_ok, Prod.mk.injEq] at h
    obtain ⟨w1, h, rfl, rfl⟩ := h
    obtain ⟨M, O, G, A, P, rest, p, m, m1, rfl, h1, h2, h3, h4, h5, h6, h7, h8, h9, h10, h11, h12,
      h13, h14, h15, h16, rfl⟩ := processCloseMining_ok h
    have ha : A.key ≠ 0 := hs A (by simp) h4
    have ho : O.key ≠ 0 := hs O (by simp) h2
    obtain ⟨g1, g2⟩ := pool_slot (hw P.key) h5 h6 h7 ha (Or.inl h8)
    have hnp : ∀ q, (w M.key).content ≠ .pool q := fun q hq => hclean M (by simp) q ⟨h1, hq⟩
    obtain ⟨hm, hmv⟩ := mining_view (hw M.key) h1 h11 hnp
    have hmi : (w M.key).content = .mining m ∧ InitMining env M.key (w M.key).len m := by
      rcases hmv with hmv | ⟨hb, _⟩
      · exact hmv
      · exact absurd (h12.symm.trans hb.owner) ho
    have hne : G.key ≠ M.key := by
      intro e; rw [e, h1] at h3; exact env.program_ne_system h3
    refine .close rfl h2 h4 g2 ⟨h5, g1⟩ h8.symm ⟨h1, hmi.1⟩ hmi.2 hm h12 h13 h14 h15 h3 ?_ ?_ ?_ h9 hne
    · rw [world_set_same]
    · rw [world_set_ne _ _ hne, world_set_same]
    · intro k k1 k2
      rw [world_set_ne _ _ k1, world_set_ne _ _ k2]
  | changeDelegate a nd =>
    simp only [process, res_bind_ok, res_pure_ok, Prod.mk.injEq] at h
    obtain ⟨w1, h, rfl, rfl⟩ := h
    obtain ⟨P, M, A, O, Old, New, rest, p, m, nD, oD, p', m', nD', oD', rfl, hpo, hmo, hA, hO, hoo, hno, hne, hmp, hl,
      hn, ho, hd, rfl⟩ := processChangeDelegate_ok h
    have hold : ∀ q, ¬ PoolAt env w Old.key q := hclean Old (by simp)
    obtain ⟨hg, hm, hnd, hod, hE⟩ := redelegate_world (p' := p') (m' := m') (nd' := nD') (od' := oD') hw
      (hs A (by simp) hA) hpo hmo hno hoo hne hmp hl hn ho hold
    obtain ⟨q, s, o, f, sn, so⟩ := changeDelegate_same hg.ok hm hnd hod hd
    refine .redelegate rfl hO hd (checked_of hw hpo hmo hA (hs A (by simp) hA) hl) ?_ hod ?_ hne q s f o sn so hmp (hE sn so) ?_ ?_ ?_
    · rintro x rfl
      rcases hn with ⟨_, e⟩ | ⟨_, y, e, e2⟩
      · cases e
      · cases e; exact delChecked_of hw hno e2
    · rintro x rfl
      rcases ho with ⟨_, e⟩ | ⟨_, y, e, _, _, e2⟩
      · cases e
      · cases e
        obtain ⟨_, h3⟩ := mining_view (hw Old.key) hoo e2 (fun q hq => hold q ⟨hoo, hq⟩)
        rcases h3 with ⟨h3, h4⟩ | ⟨h3, _⟩
        · exact Or.inl ⟨⟨hoo, h3⟩, h4⟩
        · exact Or.inr h3
    · have he := hE sn so
      have wo : Writable env w Old.key oD' := by
        rcases ho with ⟨_, rfl⟩ | ⟨_, y, rfl, _, _, h2⟩
        · cases oD' with
          | none => intro _ h; cases h
          | some _ => exact so.elim
        · exact writable_of hw hoo h2 hold so
      have wn : Writable env w New.key nD' := by
        rcases hn with ⟨_, rfl⟩ | ⟨_, y, rfl, h2⟩
        · cases nD' with
          | none => intro _ h; cases h
          | some _ => exact sn.elim
        · exact writable_of hw hno h2.view (fun q hq => (delegate_slot hw hno h2).2 q hq.2) sn
      have h1 := shell_stake (dk := Old.key) he.pool he.mining hmp (d' := oD') (by
        rcases ho with ⟨_, rfl⟩ | ⟨h1, y, rfl, h2, _⟩
        · left
          cases oD' with
          | none => rfl
          | some _ => exact so.elim
        · exact Or.inr ⟨Ne.symm h1, h2⟩) wo p' m'
      cases nD' with
      | none => exact h1
      | some x' =>
        rcases hn with ⟨_, rfl⟩ | ⟨h3, y, rfl, h2⟩
        · exact sn.elim
        · have e2 : putDelegate env (putMining env (putPool w P.key p') M.key m') Old.key oD' New.key = w New.key := by
            rw [putDelegate_ne _ _ hne, putMining_ne _ _ (Ne.symm h3), putPool_ne _ _ h2.ne_pool]
          obtain ⟨h5, h6⟩ := wn x' rfl
          exact shell_split h1 e2 (shell_putMining (by rw [e2]; exact h5) (by rw [e2]; exact h6))
            (fun j hj => putMining_ne _ _ hj)
    · rintro x' rfl
      rcases ho with ⟨_, rfl⟩ | ⟨_, y, rfl, _, _, h2⟩
      · exact so.elim
      · refine ⟨⟨y, rfl, hoo, h2⟩, fun y hy => ?_⟩
        rw [miningAt_congr (putDelegate_ne _ _ (Ne.symm hne))] at hy
        exact putMining_written hy
    · rintro x' rfl
      rcases hn with ⟨_, rfl⟩ | ⟨_, y, rfl, h2⟩
      · exact sn.elim
      · exact ⟨⟨y, rfl, hno, h2.view⟩, fun y hy => putMining_written hy⟩
  | slash o n mu ex =>
    simp only [process, res_bind_ok, res_pure_ok, Prod.mk.injEq] at h
    obtain ⟨w1, h, rfl, rfl⟩ := h
    obtain ⟨A, P, M, rest, p, m, p', m', rfl, hsig, hpo, hmo, hne, hl, hd, rfl⟩ := processSlash_ok h
    have c := checked_of hw hpo hmo hsig (hs A (by simp) hsig) hl
    obtain ⟨hpc, -⟩ := pool_slot (hw P.key) hpo hl.plen hl.pview c.authNe (Or.inl hl.auth)
    obtain ⟨-, hmc, -⟩ := mining_slot hw hmo hpo hl
    obtain ⟨q, s, ok, f⟩ := slash_same c.good.ok c.miningOk hd
    have m1 : MiningAt env (putPool w P.key p') M.key m := (miningAt_congr (putPool_ne _ _ hne)).mpr ⟨hmo, hmc⟩
    refine .stake (D := M) (d := none) (d' := none) ⟨rfl, rest, rfl⟩ ⟨hd, rfl, rfl⟩ c (by simp) q s f ok trivial ?_
      (shell_stake (dk := M.key) (d' := none) ⟨hpo, hpc⟩ ⟨hmo, hmc⟩ hne (Or.inl rfl) (fun _ h => by cases h) p' m')
      (fun _ h => by cases h)
    refine ⟨⟨hpo, hpc⟩, ⟨hmo, hmc⟩, ?_, putMining_at m1 m', ?_, hne, Or.inl ⟨rfl, rfl, rfl⟩⟩
    · exact (poolAt_congr (putMining_ne _ _ (Ne.symm hne))).mpr (putPool_at hpo _)
    · intro k k1 k2 _
      rw [putMining_ne _ _ k2, putPool_ne _ _ k1]
  | decreaseRewards o n =>
    simp only [process, res_bind_ok, res_pure_ok, Prod.mk.injEq] at h
    obtain ⟨w1, h, rfl, rfl⟩ := h
    obtain ⟨A, P, M, rest, p, m, m', rfl, hsig, hpo, hmo, hne, hl, hd, rfl⟩ := processDecreaseRewards_ok h
    have c := checked_of hw hpo hmo hsig (hs A (by simp) hsig) hl
    obtain ⟨hpc, -⟩ := pool_slot (hw P.key) hpo hl.plen hl.pview c.authNe (Or.inl hl.auth)
    obtain ⟨-, hmc, -⟩ := mining_slot hw hmo hpo hl
    obtain ⟨s, ok, f⟩ := decrease_same c.miningOk hd
    exact .decrease rfl c ⟨hpo, hpc⟩ hd ⟨hmo, hmc⟩ (putMining_at ⟨hmo, hmc⟩ _) s ok f (fun k hk => putMining_ne _ _ hk)
      (shell_putMining hmo (Or.inl ⟨m, hmc⟩))

end Verif
