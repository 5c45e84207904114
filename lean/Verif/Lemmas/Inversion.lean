import Verif.Lemmas.Basic
/-!
What a successful instruction checked and did: one inversion lemma per processor.
-/

namespace Verif

variable {env : Env}

theorem loadMining_ok {a : Account} {m : Mining} :
    loadMining env a = .ok m ↔ MINING_LEN ≤ a.len ∧ viewMining env a.content = some m := by
  unfold loadMining
  simp [res_bind_ok, ensure_ok, okOr_ok]

theorem loadPool_ok {a : Account} {p : Pool} :
    loadPool env a = .ok p ↔ POOL_LEN ≤ a.len ∧ viewPool env a.content = some p := by
  unfold loadPool
  simp [res_bind_ok, ensure_ok, okOr_ok]

/-- The facts established by `assert_and_get_pool_and_mining`. -/
structure PoolAndMining (env : Env) (w : World) (owner mk pk dk : Key) (p : Pool) (m : Mining) : Prop where
  mlen : MINING_LEN ≤ (w mk).len
  mview : viewMining env (w mk).content = some m
  plen : POOL_LEN ≤ (w pk).len
  pview : viewPool env (w pk).content = some p
  addr : env.miningAddr owner pk m.bump = some mk
  auth : dk = p.depositAuthority
  pool : m.rewardPool = pk
  owner : m.owner = owner

theorem getPoolAndMining_ok {w : World} {owner : Key} {mi po de : AccountInfo} {p : Pool} {m : Mining} :
    getPoolAndMining env w owner mi po de = .ok (p, m) ↔ PoolAndMining env w owner mi.key po.key de.key p m := by
  unfold getPoolAndMining
  simp only [res_bind_ok, ensure_ok, okOr_ok, assertKey_ok, loadMining_ok, loadPool_ok, res_pure_ok, Prod.mk.injEq]
  constructor
  · rintro ⟨m', ⟨h1, h2⟩, p', ⟨h3, h4⟩, k, h5, _, h6, _, h7, _, h8, _, h9, rfl, rfl⟩
    exact ⟨h1, h2, h3, h4, by rw [h5, h6], h7, h8.symm, h9.symm⟩
  · rintro ⟨h1, h2, h3, h4, h5, h6, h7, h8⟩
    exact ⟨m, ⟨h1, h2⟩, p, ⟨h3, h4⟩, _, h5, (), rfl, (), h6, (), h7.symm, (), h8.symm, rfl, rfl⟩

/-- A delegate's mining account, other than `mk` itself, with verified address. -/
structure DelegateOk (env : Env) (w : World) (dk delegate pk : Key) (d : Mining) : Prop where
  ne_pool : dk ≠ pk
  len : MINING_LEN ≤ (w dk).len
  view : viewMining env (w dk).content = some d
  addr : env.miningAddr delegate pk d.bump = some dk

theorem loadDelegate_ok {w : World} {dm mi : AccountInfo} {delegate pk : Key} {d : Option Mining} :
    loadDelegate env w dm mi delegate pk = .ok d ↔
      (mi.key = dm.key ∧ d = none) ∨ (mi.key ≠ dm.key ∧ ∃ x, d = some x ∧ DelegateOk env w dm.key delegate pk x) := by
  unfold loadDelegate verifyDelegate
  by_cases h : mi.key = dm.key
  · simp [h, pure, Except.pure, eq_comm]
  · rw [if_pos h]
    simp only [res_bind_ok, ensure_ok, okOr_ok, loadMining_ok, res_pure_ok]
    constructor
    · rintro ⟨_, ⟨_, h1, m, ⟨h2, h3⟩, k, h4, h5⟩, m', ⟨_, h6⟩, rfl⟩
      rw [h3] at h6; cases h6
      exact Or.inr ⟨h, m, rfl, h1, h2, h3, by rw [h4, h5]⟩
    · rintro (⟨h', _⟩ | ⟨_, x, rfl, h1, h2, h3, h4⟩)
      · exact absurd h' h
      · exact ⟨(), ⟨(), h1, x, ⟨h2, h3⟩, _, h4, rfl⟩, x, ⟨h2, h3⟩, rfl⟩

theorem loadOldDelegate_ok {w : World} {dm mi : AccountInfo} {pk : Key} {d : Option Mining} :
    loadOldDelegate env w dm mi pk = .ok d ↔
      (mi.key = dm.key ∧ d = none) ∨ (mi.key ≠ dm.key ∧ ∃ x, d = some x ∧ dm.key ≠ pk ∧
        MINING_LEN ≤ (w dm.key).len ∧ viewMining env (w dm.key).content = some x) := by
  unfold loadOldDelegate
  by_cases h : mi.key = dm.key
  · simp [h, pure, Except.pure, eq_comm]
  · rw [if_pos h]
    simp only [res_bind_ok, ensure_ok, loadMining_ok, res_pure_ok]
    constructor
    · rintro ⟨_, h1, m, ⟨h2, h3⟩, rfl⟩
      exact Or.inr ⟨h, m, rfl, h1, h2, h3⟩
    · rintro (⟨h', _⟩ | ⟨_, x, rfl, h1, h2, h3⟩)
      · exact absurd h' h
      · exact ⟨(), h1, x, ⟨h2, h3⟩, rfl⟩

theorem unpackToken_ok {a : Account} {t : TokenAcc} : unpackToken a = .ok t ↔ a.content = .token t := by
  unfold unpackToken
  split
  · rename_i u h; rw [h]; simp
  · rename_i h; rw [h]; split <;> simp
  · rename_i h _; simp only [reduceCtorEq, false_iff]; exact h t

theorem tokenOf_ok {a : Account} {t : TokenAcc} :
    tokenOf env a = .ok t ↔ a.owner = env.tokenProgram ∧ a.content = .token t := by
  unfold tokenOf
  split
  · rename_i h
    cases hc : a.content <;> simp [h]
  · rename_i h; simp [h]

theorem transferAuth_ok {s s' : TokenAcc} {auth : Key} {n : Nat} (h : transferAuth s auth n = .ok s') :
    (s.delegate = some auth ∨ s.owner = auth) ∧ s'.mint = s.mint ∧ s'.owner = s.owner ∧ s'.amount = s.amount ∧
      s'.frozen = s.frozen ∧ s'.native = s.native := by
  unfold transferAuth at h
  split at h
  · rename_i hd
    split at h
    · cases h; exact ⟨Or.inl hd, rfl, rfl, rfl, rfl, rfl⟩
    · cases h
  · split at h
    · rename_i ho
      cases h; exact ⟨Or.inr ho, rfl, rfl, rfl, rfl, rfl⟩
    · cases h

/-- What a successful transfer checked and did. -/
theorem splTransfer_ok {w w' : World} {src dst auth : AccountInfo} {n : Nat}
    (h : splTransfer env w src dst auth n = .ok w') :
    ∃ s d s', auth.isSigner = true ∧ src.isWritable = true ∧ dst.isWritable = true ∧
      (w src.key).owner = env.tokenProgram ∧ (w src.key).content = .token s ∧
      (w dst.key).owner = env.tokenProgram ∧ (w dst.key).content = .token d ∧
      s.frozen = false ∧ d.frozen = false ∧ n ≤ s.amount ∧ s.mint = d.mint ∧
      transferAuth s auth.key n = .ok s' ∧
      (src.key = dst.key ∧ w' = w ∨ src.key ≠ dst.key ∧ d.amount + n < U64 ∧
        ∃ moved, (s.native = false → moved = 0) ∧ moved ≤ (w src.key).lamports ∧ (w dst.key).lamports + moved < U64 ∧
        w' = (w.set src.key { w src.key with
                content := .token { s' with amount := s.amount - n }, lamports := (w src.key).lamports - moved }).set
              dst.key { w dst.key with
                content := .token { d with amount := d.amount + n }, lamports := (w dst.key).lamports + moved }) := by
  unfold splTransfer at h
  simp only [res_bind_ok, ensure_ok, tokenOf_ok] at h
  obtain ⟨_, ⟨h1, h2, h3⟩, s, ⟨h4, h5⟩, d, ⟨h6, h7⟩, _, ⟨h8, h9⟩, _, h10, _, h11, _, -, s', h12, h⟩ := h
  refine ⟨s, d, s', h1, h2, h3, h4, h5, h6, h7, h8, h9, h10, h11, h12, ?_⟩
  split at h
  · rename_i he
    rw [res_pure_ok] at h
    exact Or.inl ⟨he, h.symm⟩
  · rename_i he
    simp only [res_bind_ok, ensure_ok, res_pure_ok] at h
    obtain ⟨_, h13, _, ⟨h14, h15⟩, rfl⟩ := h
    exact Or.inr ⟨he, h13, _, fun hn => by simp [hn], h14, h15, rfl⟩

theorem createAccount_ok {w w' : World} {payer to : AccountInfo} {len : Nat} {owner : Key} :
    createAccount env w payer to len owner = .ok w' ↔
      (payer.isSigner = true ∧ payer.isWritable = true ∧ to.isWritable = true) ∧ payer.key ≠ to.key ∧
      ((w to.key).lamports = 0 ∧ (w to.key).len = 0 ∧ (w to.key).owner = env.systemProgram) ∧
      ((w payer.key).len = 0 ∧ (w payer.key).owner = env.systemProgram) ∧
      env.rentMin len ≤ (w payer.key).lamports ∧
      w' = (w.set payer.key { w payer.key with lamports := (w payer.key).lamports - env.rentMin len }).set to.key
        { owner := owner, lamports := env.rentMin len, len := len, content := .zero } := by
  unfold createAccount
  simp only [res_bind_ok, ensure_ok, res_pure_ok]
  constructor
  · rintro ⟨_, h1, _, h2, _, h3, _, h4, _, h5, rfl⟩; exact ⟨h1, h2, h3, h4, h5, rfl⟩
  · rintro ⟨h1, h2, h3, h4, h5, rfl⟩; exact ⟨(), h1, (), h2, (), h3, (), h4, (), h5, rfl⟩

theorem initializeTokenAccount_ok {w w' : World} {acc mint auth : Key} :
    initializeTokenAccount env w acc mint auth = .ok w' ↔
      ((w acc).owner = env.tokenProgram ∧ (w acc).content = .zero) ∧
      (mint = env.nativeMint ∨ ((w mint).owner = env.tokenProgram ∧ (w mint).content = .mint)) ∧
      w' = w.set acc { w acc with
        content := .token (TokenAcc.mk mint auth 0 false none 0 (decide (mint = env.nativeMint))) } := by
  unfold initializeTokenAccount
  simp only [res_bind_ok, ensure_ok, res_pure_ok]
  constructor
  · rintro ⟨_, h1, _, h2, rfl⟩; exact ⟨h1, h2, rfl⟩
  · rintro ⟨h1, h2, rfl⟩; exact ⟨(), h1, (), h2, rfl⟩

/-- InitializePool. -/
theorem processInitializePool_ok {w w' : World} {accs : List AccountInfo} {f d : Key}
    (h : processInitializePool env w accs f d = .ok w') :
    ∃ (pool mint vault payer dep rent tok sys : AccountInfo) (rest : List AccountInfo) (p : Pool) (bump : Nat)
      (w1 w2 : World),
      accs = pool :: mint :: vault :: payer :: dep :: rent :: tok :: sys :: rest ∧
      (w pool.key).owner = env.programId ∧ (w mint.key).owner = env.tokenProgram ∧
      (w vault.key).content.allZero = true ∧ payer.isSigner = true ∧ dep.isSigner = true ∧
      rent.key = env.rentSysvar ∧ tok.key = env.tokenProgram ∧ sys.key = env.systemProgram ∧
      (w pool.key).len = POOL_LEN ∧ viewPool env (w pool.key).content = some p ∧ p.isInitialized ≠ true ∧
      env.findVault pool.key mint.key = some (vault.key, bump) ∧
      (payer.key ≠ pool.key ∧ vault.key ≠ pool.key) ∧
      createAccount env w payer vault TOKEN_LEN env.tokenProgram = .ok w1 ∧
      (mint.key ≠ pool.key ∧ dep.key ≠ pool.key ∧ rent.key ≠ pool.key) ∧
      initializeTokenAccount env w1 vault.key mint.key dep.key = .ok w2 ∧
      w' = putPool w2 pool.key (Pool.init bump dep.key d f mint.key) := by
  unfold processInitializePool at h
  simp only [res_bind_ok, nextWithOwner_ok, nextUninitialized_ok, nextSigner_ok, nextWithKey_ok, ensure_ok, okOr_ok,
    assertKey_ok, loadPool_ok, res_pure_ok, Prod.exists] at h
  obtain ⟨pool, _, ⟨rfl, h1⟩, mint, _, ⟨rfl, h2⟩, vault, _, ⟨rfl, h3⟩, payer, _, ⟨rfl, h4⟩, dep, _, ⟨rfl, h5⟩,
    rent, _, ⟨rfl, h6⟩, tok, _, ⟨rfl, h7⟩, sys, rest, ⟨rfl, h8⟩, _, h9, p, ⟨_, h10⟩, _, h11, vk, bump, h12, _, rfl,
    _, h13, w1, h14, _, h15, w2, h16, rfl⟩ := h
  exact ⟨pool, mint, vault, payer, dep, rent, tok, sys, rest, p, bump, w1, w2, rfl, h1, h2, h3, h4, h5, h6, h7, h8,
    h9, h10, h11, h12, h13, h14, h15, h16, rfl⟩

/-- FillVault. -/
theorem processFillVault_ok {now : Nat} {w w' : World} {accs : List AccountInfo} {r e : Nat}
    (h : processFillVault env now w accs r e = .ok w') :
    ∃ (pool mint vault fill source tok : AccountInfo) (rest : List AccountInfo) (p : Pool),
      accs = pool :: mint :: vault :: fill :: source :: tok :: rest ∧
      (w pool.key).owner = env.programId ∧ (w mint.key).owner = env.tokenProgram ∧
      (w vault.key).owner = env.tokenProgram ∧ fill.isSigner = true ∧ (w source.key).owner = env.tokenProgram ∧
      tok.key = env.tokenProgram ∧ r ≠ 0 ∧ POOL_LEN ≤ (w pool.key).len ∧
      viewPool env (w pool.key).content = some p ∧ fill.key = p.fillAuthority ∧
      env.vaultAddr pool.key mint.key p.bump = some vault.key ∧ bod now ≤ bod e ∧
      p.distributionEndsAt ≤ bod e ∧ bod e < U64 ∧ p.tokensAvailable + r < U64 ∧
      (source.key ≠ pool.key ∧ vault.key ≠ pool.key ∧ fill.key ≠ pool.key) ∧
      splTransfer env (putPool w pool.key
        { p with distributionEndsAt := bod e, tokensAvailable := p.tokensAvailable + r }) source vault fill r
        = .ok w' := by
  unfold processFillVault at h
  simp only [res_bind_ok, nextWithOwner_ok, nextSigner_ok, nextWithKey_ok, ensure_ok, okOr_ok,
    assertKey_ok, loadPool_ok, safeSub_ok, safeAdd64_ok, Prod.exists] at h
  obtain ⟨pool, _, ⟨rfl, h1⟩, mint, _, ⟨rfl, h2⟩, vault, _, ⟨rfl, h3⟩, fill, _, ⟨rfl, h4⟩, source, _, ⟨rfl, h5⟩,
    tok, rest, ⟨rfl, h6⟩, _, h7, p, ⟨h8, h9⟩, _, h10, vk, h11, _, rfl, _, h12, _, ⟨h13, rfl⟩, _, ⟨h14, rfl⟩, _,
    ⟨h15, rfl⟩, _, h16, h17⟩ := h
  have he : p.distributionEndsAt + (bod e - p.distributionEndsAt) = bod e := by omega
  rw [he] at h14 h17
  exact ⟨pool, mint, vault, fill, source, tok, rest, p, rfl, h1, h2, h3, h4, h5, h6, h7, h8, h9, h10, h11, by omega,
    h13, h14, h15, h16, h17⟩

/-- InitializeMining. -/
theorem processInitializeMining_ok {w w' : World} {accs : List AccountInfo} {o : Key}
    (h : processInitializeMining env w accs o = .ok w') :
    ∃ (pool mining payer sys : AccountInfo) (rest : List AccountInfo) (bump : Nat) (w1 : World),
      accs = pool :: mining :: payer :: sys :: rest ∧ (w pool.key).owner = env.programId ∧
      (w mining.key).content.allZero = true ∧ payer.isSigner = true ∧ sys.key = env.systemProgram ∧
      env.findMining o pool.key = some (mining.key, bump) ∧
      createAccount env w payer mining MINING_LEN env.programId = .ok w1 ∧
      w' = putMining env w1 mining.key (Mining.init pool.key o bump) := by
  unfold processInitializeMining at h
  simp only [res_bind_ok, nextWithOwner_ok, nextUninitialized_ok, nextSigner_ok, nextWithKey_ok, okOr_ok,
    assertKey_ok, res_pure_ok, Prod.exists] at h
  obtain ⟨pool, _, ⟨rfl, h1⟩, mining, _, ⟨rfl, h2⟩, payer, _, ⟨rfl, h3⟩, sys, rest, ⟨rfl, h4⟩, k, bump, h5, _, rfl,
    w1, h6, rfl⟩ := h
  exact ⟨pool, mining, payer, sys, rest, bump, w1, rfl, h1, h2, h3, h4, h5, h6, rfl⟩

/-- The common part of DepositMining, WithdrawMining and ExtendStake. -/
structure StakeCall (env : Env) (w : World) (accs : List AccountInfo) (owner delegate : Key)
    (pool mining dep del : AccountInfo) (p : Pool) (m : Mining) (d : Option Mining) : Prop where
  accs_eq : ∃ rest, accs = pool :: mining :: dep :: del :: rest
  pool_owned : (w pool.key).owner = env.programId
  mining_owned : (w mining.key).owner = env.programId
  signed : dep.isSigner = true
  del_owned : (w del.key).owner = env.programId
  ne : mining.key ≠ pool.key
  loaded : PoolAndMining env w owner mining.key pool.key dep.key p m
  delegate : (mining.key = del.key ∧ d = none) ∨
    (mining.key ≠ del.key ∧ ∃ x, d = some x ∧ DelegateOk env w del.key delegate pool.key x)

/-- DepositMining. -/
theorem processDepositMining_ok {now : Nat} {w w' : World} {accs : List AccountInfo} {a : Nat} {per : LockupPeriod}
    {owner delegate : Key} (h : processDepositMining env now w accs a per owner delegate = .ok w') :
    ∃ pool mining dep del p m d p' m' d',
      StakeCall env w accs owner delegate pool mining dep del p m d ∧
      p.deposit env.caps now m a per d = .ok (p', m', d') ∧
      w' = putDelegate env (putMining env (putPool w pool.key p') mining.key m') del.key d' := by
  unfold processDepositMining at h
  simp only [res_bind_ok, nextWithOwner_ok, nextSigner_ok, ensure_ok, getPoolAndMining_ok, loadDelegate_ok, res_pure_ok,
    Prod.exists] at h
  obtain ⟨pool, _, ⟨rfl, h1⟩, mining, _, ⟨rfl, h2⟩, dep, _, ⟨rfl, h3⟩, del, rest, ⟨rfl, h4⟩, _, h5, p, m, h6, d, h7,
    p', m', d', h8, rfl⟩ := h
  exact ⟨pool, mining, dep, del, p, m, d, p', m', d', ⟨⟨rest, rfl⟩, h1, h2, h3, h4, h5, h6, h7⟩, h8, rfl⟩

/-- WithdrawMining. -/
theorem processWithdrawMining_ok {now : Nat} {w w' : World} {accs : List AccountInfo} {a : Nat}
    {owner delegate : Key} (h : processWithdrawMining env now w accs a owner delegate = .ok w') :
    ∃ pool mining dep del p m d p' m' d',
      StakeCall env w accs owner delegate pool mining dep del p m d ∧
      p.withdraw now m a d = .ok (p', m', d') ∧
      w' = putDelegate env (putMining env (putPool w pool.key p') mining.key m') del.key d' := by
  unfold processWithdrawMining at h
  simp only [res_bind_ok, nextWithOwner_ok, nextSigner_ok, ensure_ok, getPoolAndMining_ok, loadDelegate_ok, res_pure_ok,
    Prod.exists] at h
  obtain ⟨pool, _, ⟨rfl, h1⟩, mining, _, ⟨rfl, h2⟩, dep, _, ⟨rfl, h3⟩, del, rest, ⟨rfl, h4⟩, _, h5, p, m, h6, d, h7,
    p', m', d', h8, rfl⟩ := h
  exact ⟨pool, mining, dep, del, p, m, d, p', m', d', ⟨⟨rest, rfl⟩, h1, h2, h3, h4, h5, h6, h7⟩, h8, rfl⟩

/-- ExtendStake. -/
theorem processExtendStake_ok {now : Nat} {w w' : World} {accs : List AccountInfo} {op np : LockupPeriod}
    {ts b a : Nat} {owner delegate : Key} (h : processExtendStake env now w accs op np ts b a owner delegate = .ok w') :
    ∃ pool mining dep del p m d p' m' d',
      StakeCall env w accs owner delegate pool mining dep del p m d ∧
      p.extend env.caps now m op np ts b a d = .ok (p', m', d') ∧
      w' = putDelegate env (putMining env (putPool w pool.key p') mining.key m') del.key d' := by
  unfold processExtendStake at h
  simp only [res_bind_ok, nextWithOwner_ok, nextSigner_ok, ensure_ok, getPoolAndMining_ok, loadDelegate_ok, res_pure_ok,
    Prod.exists] at h
  obtain ⟨pool, _, ⟨rfl, h1⟩, mining, _, ⟨rfl, h2⟩, dep, _, ⟨rfl, h3⟩, del, rest, ⟨rfl, h4⟩, _, h5, p, m, h6, d, h7,
    p', m', d', h8, rfl⟩ := h
  exact ⟨pool, mining, dep, del, p, m, d, p', m', d', ⟨⟨rest, rfl⟩, h1, h2, h3, h4, h5, h6, h7⟩, h8, rfl⟩

/-- Claim. -/
theorem processClaim_ok {now : Nat} {w w' : World} {accs : List AccountInfo} {n : Nat}
    (h : processClaim env now w accs = .ok (w', n)) :
    ∃ (pool mint vault mining owner dep user tok : AccountInfo) (rest : List AccountInfo) (ut : TokenAcc) (p : Pool)
      (m m1 : Mining),
      accs = pool :: mint :: vault :: mining :: owner :: dep :: user :: tok :: rest ∧
      (w pool.key).owner = env.programId ∧ (w mint.key).owner = env.tokenProgram ∧
      (w vault.key).owner = env.tokenProgram ∧ (w mining.key).owner = env.programId ∧ owner.isSigner = true ∧
      dep.isSigner = true ∧ (w user.key).owner = env.tokenProgram ∧ tok.key = env.tokenProgram ∧
      (w user.key).content = .token ut ∧ ut.owner = owner.key ∧ POOL_LEN ≤ (w pool.key).len ∧
      viewPool env (w pool.key).content = some p ∧ dep.key = p.depositAuthority ∧ mining.key ≠ pool.key ∧
      MINING_LEN ≤ (w mining.key).len ∧ viewMining env (w mining.key).content = some m ∧ m.owner = owner.key ∧
      m.rewardPool = pool.key ∧ env.vaultAddr pool.key mint.key p.bump = some vault.key ∧
      m.refreshRewards now p.cumulative = .ok m1 ∧ n = m1.unclaimed ∧
      (0 < m1.unclaimed ∧
        splTransfer env (putMining env w mining.key m1.claim) vault user dep m1.unclaimed = .ok w' ∨
       m1.unclaimed = 0 ∧ w' = putMining env w mining.key m1.claim) := by
  unfold processClaim at h
  simp only [res_bind_ok, nextWithOwner_ok, nextSigner_ok, nextWithKey_ok, ensure_ok, okOr_ok, unpackToken_ok,
    assertKey_ok, loadPool_ok, loadMining_ok, Prod.exists] at h
  obtain ⟨pool, _, ⟨rfl, h1⟩, mint, _, ⟨rfl, h2⟩, vault, _, ⟨rfl, h3⟩, mining, _, ⟨rfl, h4⟩, owner, _, ⟨rfl, h5⟩,
    dep, _, ⟨rfl, h6⟩, user, _, ⟨rfl, h7⟩, tok, rest, ⟨rfl, h8⟩, ut, h9, _, h10, p, ⟨h11, h12⟩, _, h13, _, h14,
    m, ⟨h15, h16⟩, _, h17, _, h18, vk, h19, _, rfl, m1, h20, h⟩ := h
  refine ⟨pool, mint, vault, mining, owner, dep, user, tok, rest, ut, p, m, m1, rfl, h1, h2, h3, h4, h5, h6, h7, h8,
    h9, h10.symm, h11, h12, h13, h14, h15, h16, h17.symm, h18.symm, h19, h20, ?_⟩
  split at h
  · rename_i hpos
    simp only [res_bind_ok, res_pure_ok, Prod.mk.injEq] at h
    obtain ⟨w2, h21, rfl, rfl⟩ := h
    exact ⟨rfl, Or.inl ⟨hpos, h21⟩⟩
  · rename_i hpos
    simp only [res_bind_ok, res_pure_ok, Prod.mk.injEq] at h
    obtain ⟨w2, rfl, rfl, rfl⟩ := h
    exact ⟨rfl, Or.inr ⟨by omega, rfl⟩⟩

/-- DistributeRewards. -/
theorem processDistributeRewards_ok {now : Nat} {w w' : World} {accs : List AccountInfo}
    (h : processDistributeRewards env now w accs = .ok w') :
    ∃ (pool dist : AccountInfo) (rest : List AccountInfo) (p p' : Pool) (r : Nat),
      accs = pool :: dist :: rest ∧ (w pool.key).owner = env.programId ∧ dist.isSigner = true ∧
      POOL_LEN ≤ (w pool.key).len ∧ viewPool env (w pool.key).content = some p ∧
      p.rewardsToDistribute now = .ok r ∧ dist.key = p.distributeAuthority ∧
      p.distribute env.caps now r = .ok p' ∧ w' = putPool w pool.key p' := by
  unfold processDistributeRewards at h
  simp only [res_bind_ok, nextWithOwner_ok, nextSigner_ok, assertKey_ok, loadPool_ok, res_pure_ok, Prod.exists] at h
  obtain ⟨pool, _, ⟨rfl, h1⟩, dist, rest, ⟨rfl, h2⟩, p, ⟨h3, h4⟩, r, h5, _, h6, p', h7, rfl⟩ := h
  exact ⟨pool, dist, rest, p, p', r, rfl, h1, h2, h3, h4, h5, h6, h7, rfl⟩

/-- CloseMining. -/
theorem processCloseMining_ok {now : Nat} {w w' : World} {accs : List AccountInfo}
    (h : processCloseMining env now w accs = .ok w') :
    ∃ (mining owner target dep pool : AccountInfo) (rest : List AccountInfo) (p : Pool) (m m1 : Mining),
      accs = mining :: owner :: target :: dep :: pool :: rest ∧
      (w mining.key).owner = env.programId ∧ owner.isSigner = true ∧ (w target.key).owner = env.systemProgram ∧
      dep.isSigner = true ∧ (w pool.key).owner = env.programId ∧ POOL_LEN ≤ (w pool.key).len ∧
      viewPool env (w pool.key).content = some p ∧ dep.key = p.depositAuthority ∧ mining.key ≠ pool.key ∧
      MINING_LEN ≤ (w mining.key).len ∧ viewMining env (w mining.key).content = some m ∧ m.owner = owner.key ∧
      m.refreshRewards now p.cumulative = .ok m1 ∧ m1.stakeFromOthers = 0 ∧ m1.unclaimed = 0 ∧
      (w target.key).lamports + (w mining.key).lamports < U64 ∧
      w' = (w.set target.key { w target.key with
              lamports := (w target.key).lamports + (w mining.key).lamports }).set mining.key
            { w mining.key with lamports := 0, content := .zero } := by
  unfold processCloseMining at h
  simp only [res_bind_ok, nextWithOwner_ok, nextSigner_ok, ensure_ok, safeAdd64_ok,
    assertKey_ok, loadPool_ok, loadMining_ok, res_pure_ok, Prod.exists] at h
  obtain ⟨mining, _, ⟨rfl, h1⟩, owner, _, ⟨rfl, h2⟩, target, _, ⟨rfl, h3⟩, dep, _, ⟨rfl, h4⟩, pool, rest, ⟨rfl, h5⟩,
    p, ⟨h6, h7⟩, _, h8, _, h9, m, ⟨h10, h11⟩, _, h12, m1, h13, _, h14, _, h15, _, ⟨h16, rfl⟩, rfl⟩ := h
  refine ⟨mining, owner, target, dep, pool, rest, p, m, m1, rfl, h1, h2, h3, h4, h5, h6, h7, h8, h9, h10, h11,
    h12.symm, h13, by omega, h15, h16, ?_⟩
  have hne : mining.key ≠ target.key := by
    intro he
    rw [he, h3] at h1
    exact env.program_ne_system h1.symm
  simp [World.set, hne]

/-- ChangeDelegate. -/
theorem processChangeDelegate_ok {now : Nat} {w w' : World} {accs : List AccountInfo} {a : Nat} {nd : Key}
    (h : processChangeDelegate env now w accs a nd = .ok w') :
    ∃ (pool mining dep owner oldA newA : AccountInfo) (rest : List AccountInfo) (p : Pool) (m : Mining)
      (newD oldD : Option Mining) (p' : Pool) (m' : Mining) (newD' oldD' : Option Mining),
      accs = pool :: mining :: dep :: owner :: oldA :: newA :: rest ∧
      (w pool.key).owner = env.programId ∧ (w mining.key).owner = env.programId ∧ dep.isSigner = true ∧
      owner.isSigner = true ∧ (w oldA.key).owner = env.programId ∧ (w newA.key).owner = env.programId ∧
      newA.key ≠ oldA.key ∧ mining.key ≠ pool.key ∧
      PoolAndMining env w owner.key mining.key pool.key dep.key p m ∧
      ((mining.key = newA.key ∧ newD = none) ∨
        (mining.key ≠ newA.key ∧ ∃ x, newD = some x ∧ DelegateOk env w newA.key nd pool.key x)) ∧
      ((mining.key = oldA.key ∧ oldD = none) ∨ (mining.key ≠ oldA.key ∧ ∃ x, oldD = some x ∧ oldA.key ≠ pool.key ∧
        MINING_LEN ≤ (w oldA.key).len ∧ viewMining env (w oldA.key).content = some x)) ∧
      p.changeDelegate now m newD oldD a = .ok (p', m', newD', oldD') ∧
      w' = putDelegate env (putDelegate env (putMining env (putPool w pool.key p') mining.key m') oldA.key oldD')
        newA.key newD' := by
  unfold processChangeDelegate at h
  simp only [res_bind_ok, nextWithOwner_ok, nextSigner_ok, ensure_ok, getPoolAndMining_ok, loadDelegate_ok,
    loadOldDelegate_ok, res_pure_ok, Prod.exists] at h
  obtain ⟨pool, _, ⟨rfl, h1⟩, mining, _, ⟨rfl, h2⟩, dep, _, ⟨rfl, h3⟩, owner, _, ⟨rfl, h4⟩, oldA, _, ⟨rfl, h5⟩, newA,
    rest, ⟨rfl, h6⟩, _, h7, _, h8, p, m, h9, newD, h10, _, _, oldD, h11, p', m', newD', oldD', h12, rfl⟩ := h
  exact ⟨pool, mining, dep, owner, oldA, newA, rest, p, m, newD, oldD, p', m', newD', oldD', rfl, h1, h2, h3, h4, h5,
    h6, h7, h8, h9, h10, h11, h12, rfl⟩

/-- Slash. -/
theorem processSlash_ok {now : Nat} {w w' : World} {accs : List AccountInfo} {owner : Key} {n mu : Nat}
    {ex : Option Nat} (h : processSlash env now w accs owner n mu ex = .ok w') :
    ∃ (dep pool mining : AccountInfo) (rest : List AccountInfo) (p : Pool) (m : Mining) (p' : Pool) (m' : Mining),
      accs = dep :: pool :: mining :: rest ∧ dep.isSigner = true ∧ (w pool.key).owner = env.programId ∧
      (w mining.key).owner = env.programId ∧ mining.key ≠ pool.key ∧
      PoolAndMining env w owner mining.key pool.key dep.key p m ∧ p.slash now m n mu ex = .ok (p', m') ∧
      w' = putMining env (putPool w pool.key p') mining.key m' := by
  unfold processSlash at h
  simp only [res_bind_ok, nextWithOwner_ok, nextSigner_ok, ensure_ok, getPoolAndMining_ok, res_pure_ok,
    Prod.exists] at h
  obtain ⟨dep, _, ⟨rfl, h1⟩, pool, _, ⟨rfl, h2⟩, mining, rest, ⟨rfl, h3⟩, _, h4, p, m, h5, p', m', h6, rfl⟩ := h
  exact ⟨dep, pool, mining, rest, p, m, p', m', rfl, h1, h2, h3, h4, h5, h6, rfl⟩

/-- DecreaseRewards. -/
theorem processDecreaseRewards_ok {w w' : World} {accs : List AccountInfo} {owner : Key} {n : Nat}
    (h : processDecreaseRewards env w accs owner n = .ok w') :
    ∃ (dep pool mining : AccountInfo) (rest : List AccountInfo) (p : Pool) (m m' : Mining),
      accs = dep :: pool :: mining :: rest ∧ dep.isSigner = true ∧ (w pool.key).owner = env.programId ∧
      (w mining.key).owner = env.programId ∧ mining.key ≠ pool.key ∧
      PoolAndMining env w owner mining.key pool.key dep.key p m ∧ m.decreaseRewards n = .ok m' ∧
      w' = putMining env w mining.key m' := by
  unfold processDecreaseRewards at h
  simp only [res_bind_ok, nextWithOwner_ok, nextSigner_ok, ensure_ok, getPoolAndMining_ok, res_pure_ok,
    Prod.exists] at h
  obtain ⟨dep, _, ⟨rfl, h1⟩, pool, _, ⟨rfl, h2⟩, mining, rest, ⟨rfl, h3⟩, _, h4, p, m, h5, m', h6, rfl⟩ := h
  exact ⟨dep, pool, mining, rest, p, m, m', rfl, h1, h2, h3, h4, h5, h6, rfl⟩

/-- The runtime's read-only check. -/
theorem exec_ok {now : Nat} {w w' : World} {accs : List AccountInfo} {i : Ix} {ret : Option Nat} :
    exec env now w accs i = .ok (w', ret) ↔
      process env now w accs i = .ok (w', ret) ∧ ∀ a ∈ accs, a.isWritable = false → w' a.key = w a.key := by
  unfold exec
  simp only [res_bind_ok, ensure_ok, res_pure_ok, Prod.exists, Prod.mk.injEq]
  constructor
  · rintro ⟨_, _, h1, _, h2, rfl, rfl⟩; exact ⟨h1, h2⟩
  · rintro ⟨h1, h2⟩; exact ⟨_, _, h1, (), h2, rfl, rfl⟩

end Verif
