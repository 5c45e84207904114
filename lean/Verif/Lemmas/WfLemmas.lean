import Verif.Lemmas.Preserve
import Verif.Lemmas.Inversion
/-!
Well-formedness is preserved by every instruction and every other event.
-/

namespace Verif

open Spec

variable {env : Env}

theorem world_set_same (w : World) (k : Key) (a : Account) : w.set k a k = a := by simp [World.set]
theorem world_set_ne (w : World) {k j : Key} (a : Account) (h : j ≠ k) : w.set k a j = w j := by simp [World.set, h]

theorem wf_set {now : Nat} {w : World} (h : Wf env now w) {k : Key} {a : Account} (ha : AccOk env now k a) :
    Wf env now (w.set k a) := by
  intro j
  by_cases hj : j = k
  · subst hj; rw [world_set_same]; exact ha
  · rw [world_set_ne _ _ hj]; exact h j

theorem Spec.PoolOk.later {now now' : Nat} (hn : now ≤ now') {p : Pool} (h : PoolOk now p) : PoolOk now' p :=
  ⟨h.sorted, h.aligned, h.history, fun e he => Nat.le_trans (h.past e he) (midnight_mono hn), h.index, h.ends, h.initialized⟩

theorem Spec.AccOk.later {now now' : Nat} (hn : now ≤ now') {k : Key} {a : Account} (h : AccOk env now k a) :
    AccOk env now' k a := by
  refine ⟨h.pda, h.nonzero, fun ho => ?_⟩
  rcases h.content ho with h1 | ⟨p, h1, h2⟩ | h1
  · exact Or.inl h1
  · exact Or.inr (Or.inl ⟨p, h1, h2.len, h2.notPda, h2.ok.later hn, h2.vault⟩)
  · exact Or.inr (Or.inr h1)

theorem poolLen_gt : MINING_LEN < POOL_LEN := by unfold MINING_LEN POOL_LEN; omega

/-- A long program-owned account whose pool view has a non-zero authority is a pool. -/
theorem pool_slot {now : Nat} {k : Key} {a : Account} {p : Pool} (h : AccOk env now k a)
    (ho : a.owner = env.programId) (hl : POOL_LEN ≤ a.len) (hv : viewPool env a.content = some p) {j : Key} (hj : j ≠ 0)
    (hk : j = p.depositAuthority ∨ j = p.distributeAuthority ∨ j = p.fillAuthority) :
    a.content = .pool p ∧ GoodPool env now k a.len p := by
  rcases h.content ho with h1 | ⟨q, h1, h2⟩ | ⟨m, h1, h2, h3⟩
  · rw [h1] at hv
    simp only [viewPool, Option.some.injEq] at hv
    subst hv
    simp [Pool.zero] at hk
    exact absurd hk hj
  · rw [h1] at hv
    simp only [viewPool, Option.some.injEq] at hv
    subst hv
    exact ⟨h1, h2⟩
  · rw [h1] at hv
    simp only [viewPool, Option.some.injEq] at hv
    subst hv
    rcases h3 with h3 | h3
    · have := h3.len
      have := poolLen_gt
      omega
    · obtain ⟨e1, e2, e3⟩ := env.miningAsPool_keys m
      rw [e1, e2, e3, h3.pool, h3.owner, h3.mint] at hk
      simp at hk
      exact absurd hk hj

/-- A program-owned account viewed as a mining that is not a pool. -/
theorem mining_view {now : Nat} {k : Key} {a : Account} {m : Mining} (h : AccOk env now k a)
    (ho : a.owner = env.programId) (hv : viewMining env a.content = some m) (hn : ∀ q, a.content ≠ .pool q) :
    MiningOk m ∧ (a.content = .mining m ∧ InitMining env k a.len m ∨
      BlankMining m ∧ (a.content = .zero ∧ m = Mining.zero ∨ a.content = .mining m)) := by
  rcases h.content ho with h1 | ⟨q, h1, h2⟩ | ⟨m', h1, h2, h3⟩
  · rw [h1] at hv
    simp only [viewMining, Option.some.injEq] at hv
    subst hv
    exact ⟨⟨sorted_nil, by simp [Mining.zero]⟩, Or.inr ⟨⟨rfl, rfl, rfl, rfl⟩, Or.inl ⟨h1, rfl⟩⟩⟩
  · exact absurd h1 (hn q)
  · rw [h1] at hv
    simp only [viewMining, Option.some.injEq] at hv
    subst hv
    rcases h3 with h3 | h3
    · exact ⟨h2, Or.inl ⟨h1, h3⟩⟩
    · exact ⟨h2, Or.inr ⟨h3, Or.inr h1⟩⟩

/-- Accounts at derived addresses are not pools. -/
theorem pda_not_pool {now : Nat} {k : Key} {a : Account} (h : AccOk env now k a) (ho : a.owner = env.programId)
    (hp : env.IsPda k) : ∀ q, a.content ≠ .pool q := by
  intro q hq
  rcases h.content ho with h1 | ⟨q', h1, h2⟩ | ⟨m', h1, h2, h3⟩
  · rw [h1] at hq; cases hq
  · exact h2.notPda hp
  · rw [h1] at hq; cases hq

/-- The mining of a loaded pool and mining is an initialized mining. -/
theorem mining_slot {now : Nat} {w : World} (h : Wf env now w) {owner mk pk dk : Key} {p : Pool} {m : Mining}
    (ho : (w mk).owner = env.programId) (hpo : (w pk).owner = env.programId)
    (hl : PoolAndMining env w owner mk pk dk p m) :
    MiningOk m ∧ (w mk).content = .mining m ∧ InitMining env mk (w mk).len m := by
  have hpda : env.IsPda mk := Or.inl ⟨_, _, _, hl.addr⟩
  obtain ⟨h1, h2⟩ := mining_view (h mk) ho hl.mview (pda_not_pool (h mk) ho hpda)
  refine ⟨h1, ?_⟩
  rcases h2 with h2 | ⟨h2, _⟩
  · exact h2
  · exfalso
    have h3 := (h pk).nonzero hpo
    rw [← hl.pool, h2.pool] at h3
    exact h3 rfl

theorem storePool_ok {now : Nat} {k : Key} {a : Account} {p p' : Pool} (h : AccOk env now k a)
    (hg : GoodPool env now k a.len p) (hs : SamePool p p') (hp' : PoolOk now p') : AccOk env now k (storePool a p') := by
  refine ⟨h.pda, h.nonzero, fun _ => Or.inr (Or.inl ⟨p', rfl, hg.len, hg.notPda, hp', ?_⟩)⟩
  obtain ⟨v, hv⟩ := hg.vault
  exact ⟨v, by rw [hs.rewardMint, hs.bump]; exact hv⟩

theorem storeMining_ok {now : Nat} {k : Key} {a : Account} {m m' : Mining} (h : AccOk env now k a)
    (ho : a.owner = env.programId) (hv : viewMining env a.content = some m) (hn : ∀ q, a.content ≠ .pool q)
    (hs : SameMining m m') (hm' : MiningOk m') : AccOk env now k (storeMining env a m') := by
  obtain ⟨h1, h2⟩ := mining_view h ho hv hn
  unfold storeMining
  split
  · exact h
  · have key : InitMining env k a.len m' ∨ BlankMining m' := by
      rcases h2 with ⟨_, h2⟩ | ⟨h2, _⟩
      · exact Or.inl ⟨h2.len, by rw [hs.accountType, h2.type], by rw [hs.owner, hs.rewardPool, hs.bump]; exact h2.addr,
          by rw [hs.rewardPool]; exact h2.pool, by rw [hs.rewardMint]; exact h2.mint⟩
      · exact Or.inr ⟨by rw [hs.accountType, h2.type], by rw [hs.rewardPool, h2.pool], by rw [hs.owner, h2.owner],
          by rw [hs.rewardMint, h2.mint]⟩
    split
    · rename_i q hq; exact absurd hq (hn q)
    · exact ⟨h.pda, h.nonzero, fun _ => Or.inr (Or.inr ⟨m', rfl, hm', key⟩)⟩

theorem wf_putPool {now : Nat} {w : World} (h : Wf env now w) {k : Key} {p p' : Pool}
    (hg : GoodPool env now k (w k).len p) (hs : SamePool p p') (hp' : PoolOk now p') : Wf env now (putPool w k p') :=
  wf_set h (storePool_ok (h k) hg hs hp')

theorem wf_putMining {now : Nat} {w : World} (h : Wf env now w) {k : Key} {m m' : Mining}
    (ho : (w k).owner = env.programId) (hv : viewMining env (w k).content = some m)
    (hn : ∀ q, (w k).content ≠ .pool q) (hs : SameMining m m') (hm' : MiningOk m') :
    Wf env now (putMining env w k m') :=
  wf_set h (storeMining_ok (h k) ho hv hn hs hm')

theorem putPool_ne (w : World) {k j : Key} (p : Pool) (h : j ≠ k) : putPool w k p j = w j := world_set_ne _ _ h
theorem putMining_ne (w : World) {k j : Key} (m : Mining) (h : j ≠ k) : putMining env w k m j = w j :=
  world_set_ne _ _ h

/-- The delegate of a call, if there is one. -/
theorem delegate_slot {now : Nat} {w : World} (h : Wf env now w) {dk dl pk : Key} {d : Mining}
    (ho : (w dk).owner = env.programId) (hd : DelegateOk env w dk dl pk d) :
    MiningOk d ∧ ∀ q, (w dk).content ≠ .pool q := by
  have hpda : env.IsPda dk := Or.inl ⟨_, _, _, hd.addr⟩
  have hn := pda_not_pool (h dk) ho hpda
  exact ⟨(mining_view (h dk) ho hd.view hn).1, hn⟩

theorem wf_stakeCall {now : Nat} {w : World} (h : Wf env now w) {accs : List AccountInfo} {owner delegate : Key}
    {pool mining dep del : AccountInfo} {p p' : Pool} {m m' : Mining} {d d' : Option Mining}
    (hc : StakeCall env w accs owner delegate pool mining dep del p m d) (hs : ∀ a ∈ accs, a.isSigner = true → a.key ≠ 0)
    (hr : PoolOk now p → MiningOk m → (∀ x, d = some x → MiningOk x) →
      SamePool p p' ∧ PoolOk now p' ∧ SameMining m m' ∧ MiningOk m' ∧ SameDelegate d d') :
    Wf env now (putDelegate env (putMining env (putPool w pool.key p') mining.key m') del.key d') := by
  obtain ⟨rest, hacc⟩ := hc.accs_eq
  have hdep : dep.key ≠ 0 := hs dep (by rw [hacc]; simp) hc.signed
  obtain ⟨hpc, hpg⟩ := pool_slot (h pool.key) hc.pool_owned hc.loaded.plen hc.loaded.pview hdep (Or.inl hc.loaded.auth)
  obtain ⟨hmo, hmc, hmi⟩ := mining_slot h hc.mining_owned hc.pool_owned hc.loaded
  have hdo : ∀ x, d = some x → MiningOk x := by
    intro x hx
    rcases hc.delegate with ⟨_, h1⟩ | ⟨_, y, h1, h2⟩
    · rw [h1] at hx; cases hx
    · rw [h1] at hx; cases hx
      exact (delegate_slot h hc.del_owned h2).1
  obtain ⟨r1, r2, r3, r4, r5⟩ := hr hpg.ok hmo hdo
  have w1 : Wf env now (putPool w pool.key p') := wf_putPool h hpg r1 r2
  have e1 : putPool w pool.key p' mining.key = w mining.key := putPool_ne _ _ hc.ne
  have w2 : Wf env now (putMining env (putPool w pool.key p') mining.key m') := by
    refine wf_putMining (m := m) w1 ?_ ?_ ?_ r3 r4
    · rw [e1]; exact hc.mining_owned
    · rw [e1, hmc]; rfl
    · intro q; rw [e1, hmc]; simp
  cases d' with
  | none => exact w2
  | some x' =>
    rcases hc.delegate with ⟨_, h1⟩ | ⟨hne, y, h1, h2⟩
    · subst h1; exact r5.elim
    · subst h1
      obtain ⟨s1, s2⟩ := r5
      have e2 : putMining env (putPool w pool.key p') mining.key m' del.key = w del.key := by
        rw [putMining_ne _ _ (Ne.symm hne), putPool_ne _ _ h2.ne_pool]
      obtain ⟨_, hnp⟩ := delegate_slot h hc.del_owned h2
      refine wf_putMining (m := y) w2 ?_ ?_ ?_ s1 s2
      · rw [e2]; exact hc.del_owned
      · rw [e2]; exact h2.view
      · rw [e2]; exact hnp

theorem wf_transfer {now : Nat} {w w' : World} (h : Wf env now w) {src dst auth : AccountInfo} {n : Nat}
    (ht : splTransfer env w src dst auth n = .ok w') : Wf env now w' := by
  obtain ⟨s, d, s', _, _, _, h1, _, h2, _, _, _, _, _, _, h3⟩ := splTransfer_ok ht
  rcases h3 with ⟨_, rfl⟩ | ⟨_, _, mv, _, _, _, rfl⟩
  · exact h
  · have hne : env.tokenProgram ≠ env.programId := fun e => env.program_ne_token e.symm
    refine wf_set (wf_set h ?_) ?_
    · refine ⟨fun hp => ?_, fun ho => ?_, fun ho => ?_⟩
      · exact (h src.key).pda hp
      · exact absurd (h1.symm.trans ho) hne
      · exact absurd (h1.symm.trans ho) hne
    · refine ⟨fun hp => ?_, fun ho => ?_, fun ho => ?_⟩
      · exact (h dst.key).pda hp
      · exact absurd (h2.symm.trans ho) hne
      · exact absurd (h2.symm.trans ho) hne

/-- Only the lamports of an account change. -/
theorem accOk_lamports {now : Nat} {k : Key} {a : Account} (h : AccOk env now k a) (l : Nat) :
    AccOk env now k { a with lamports := l } := ⟨h.pda, h.nonzero, h.content⟩

theorem wf_create {now : Nat} {w w' : World} (h : Wf env now w) {payer to : AccountInfo} {len : Nat} {owner : Key}
    (hc : createAccount env w payer to len owner = .ok w') (ho : owner = env.programId → len = MINING_LEN ∧ to.key ≠ 0)
    (ho' : owner = env.programId ∨ owner = env.tokenProgram) : Wf env now w' := by
  rw [createAccount_ok] at hc
  obtain ⟨_, _, _, _, _, rfl⟩ := hc
  refine wf_set (wf_set h (accOk_lamports (h _) _)) ⟨fun _ => ?_, fun e => (ho e).2, fun _ => Or.inl rfl⟩
  rcases ho' with e | e
  · exact Or.inl ⟨e, (ho e).1⟩
  · exact Or.inr (Or.inl e)

theorem wf_process {now : Nat} {w w' : World} (h : Wf env now w) {accs : List AccountInfo} {i : Ix} {ret : Option Nat}
    (hs : ∀ a ∈ accs, a.isSigner = true → a.key ≠ 0) (hc : NotPoolAsMining env w accs i)
    (hx : process env now w accs i = .ok (w', ret)) : Wf env now w' := by
  cases i with
  | initializePool f d =>
    simp only [process, res_bind_ok, res_pure_ok, Prod.mk.injEq] at hx
    obtain ⟨w1, hx, rfl, _⟩ := hx
    obtain ⟨pool, mint, vault, payer, dep, rent, tok, sys, rest, p, bump, wa, wb, rfl, h1, h2, h3, h4, h5, h6, h7, h8,
      h9, h10, h11, h12, h13, h14, h15, h16, rfl⟩ := processInitializePool_ok hx
    have hwa := wf_create h h14 (fun e => absurd e.symm env.program_ne_token) (Or.inr rfl)
    rw [initializeTokenAccount_ok] at h16
    obtain ⟨⟨g1, g2⟩, _, rfl⟩ := h16
    have hwb : Wf env now (wa.set vault.key { wa vault.key with
        content := .token (TokenAcc.mk mint.key dep.key 0 false none 0 (decide (mint.key = env.nativeMint))) }) := by
      refine wf_set hwa ⟨(hwa _).pda, fun e => ?_, fun e => ?_⟩
      · exact absurd (g1.symm.trans e) (fun e => env.program_ne_token e.symm)
      · exact absurd (g1.symm.trans e) (fun e => env.program_ne_token e.symm)
    have hpda : ¬ env.IsPda pool.key := by
      intro hp
      rcases (h pool.key).pda hp with ⟨_, e⟩ | e | e
      · have := poolLen_gt; omega
      · exact env.program_ne_token (h1.symm.trans e)
      · exact env.program_ne_system (h1.symm.trans e)
    rw [createAccount_ok] at h14
    obtain ⟨_, _, _, _, _, rfl⟩ := h14
    refine wf_set hwb ⟨fun hp => absurd hp hpda, fun _ => (h pool.key).nonzero h1, fun _ =>
      Or.inr (Or.inl ⟨_, rfl, ?_, hpda, ?_, ⟨_, h12⟩⟩)⟩
    · simp only [storePool]
      rw [world_set_ne _ _ (Ne.symm h13.2), world_set_ne _ _ (Ne.symm h13.2), world_set_ne _ _ (Ne.symm h13.1)]
      exact h9
    · exact ⟨sorted_nil, by simp [Pool.init, Pool.zero], ⟨sorted_nil, List.Pairwise.nil, by simp [Pool.init, Pool.zero]⟩,
        by simp [Pool.init, Pool.zero], by simp [Pool.init, Pool.zero], by simp [Pool.init, Pool.zero], rfl⟩
  | fillVault r e =>
    simp only [process, res_bind_ok, res_pure_ok, Prod.mk.injEq] at hx
    obtain ⟨w1, hx, rfl, _⟩ := hx
    obtain ⟨pool, mint, vault, fill, source, tok, rest, p, rfl, h1, h2, h3, h4, h5, h6, h7, h8, h9, h10, h11, h12, h13,
      h14, h15, h16, h17⟩ := processFillVault_ok hx
    have hf : fill.key ≠ 0 := hs fill (by simp) h4
    obtain ⟨g1, g2⟩ := pool_slot (h pool.key) h1 h8 h9 hf (Or.inr (Or.inr h10))
    refine wf_transfer (wf_putPool (p := p) (p' := { p with
      distributionEndsAt := bod e, tokensAvailable := p.tokensAvailable + r }) h g2 ⟨rfl, rfl, rfl, rfl, rfl, rfl⟩ ?_) h17
    exact ⟨g2.ok.sorted, g2.ok.aligned, g2.ok.history, g2.ok.past, g2.ok.index, bod_mod e, g2.ok.initialized⟩
  | initializeMining o =>
    simp only [process, res_bind_ok, res_pure_ok, Prod.mk.injEq] at hx
    obtain ⟨w1, hx, rfl, _⟩ := hx
    obtain ⟨pool, mining, payer, sys, rest, bump, wa, rfl, h1, h2, h3, h4, h5, h6, rfl⟩ := processInitializeMining_ok hx
    have haddr := env.findMining_spec _ _ _ _ h5
    have hne : mining.key ≠ 0 := by intro e; rw [e] at haddr; exact env.miningAddr_ne_zero _ _ _ haddr
    have hwa := wf_create h h6 (fun _ => ⟨rfl, hne⟩) (Or.inl rfl)
    have hp0 := (h pool.key).nonzero h1
    rw [createAccount_ok] at h6
    obtain ⟨_, _, _, _, _, rfl⟩ := h6
    refine wf_set hwa ?_
    rw [world_set_same]
    unfold storeMining
    split
    · exact ⟨fun _ => Or.inl ⟨rfl, rfl⟩, fun _ => hne, fun _ => Or.inl rfl⟩
    · simp only
      exact ⟨fun _ => Or.inl ⟨rfl, rfl⟩, fun _ => hne, fun _ => Or.inr (Or.inr ⟨_, rfl,
        ⟨sorted_nil, by simp [Mining.init, Mining.zero]⟩, Or.inl ⟨rfl, rfl, haddr, hp0, rfl⟩⟩)⟩
  | depositMining a l o d =>
    simp only [process, res_bind_ok, res_pure_ok, Prod.mk.injEq] at hx
    obtain ⟨w1, hx, rfl, _⟩ := hx
    obtain ⟨pool, mining, dep, del, p, m, d, p', m', d', hcall, hd, rfl⟩ := processDepositMining_ok hx
    refine wf_stakeCall h hcall hs (fun a b c => ?_)
    obtain ⟨q, r1, r2, _, r3⟩ := deposit_same a b c hd
    exact ⟨q.same, q.ok, r1, r2, r3⟩
  | withdrawMining a o d =>
    simp only [process, res_bind_ok, res_pure_ok, Prod.mk.injEq] at hx
    obtain ⟨w1, hx, rfl, _⟩ := hx
    obtain ⟨pool, mining, dep, del, p, m, d, p', m', d', hcall, hd, rfl⟩ := processWithdrawMining_ok hx
    refine wf_stakeCall h hcall hs (fun a b c => ?_)
    obtain ⟨q, r1, r2, _, r3⟩ := withdraw_same a b c hd
    exact ⟨q.same, q.ok, r1, r2, r3⟩
  | extendStake ol nl ts b a o d =>
    simp only [process, res_bind_ok, res_pure_ok, Prod.mk.injEq] at hx
    obtain ⟨w1, hx, rfl, _⟩ := hx
    obtain ⟨pool, mining, dep, del, p, m, d, p', m', d', hcall, hd, rfl⟩ := processExtendStake_ok hx
    refine wf_stakeCall h hcall hs (fun a b c => ?_)
    obtain ⟨q, r1, r2, _, r3⟩ := extend_same a b c hd
    exact ⟨q.same, q.ok, r1, r2, r3⟩
  | claim =>
    simp only [process, res_bind_ok, res_pure_ok, Prod.mk.injEq, Prod.exists] at hx
    obtain ⟨w1, n, hx, rfl, _⟩ := hx
    obtain ⟨pool, mint, vault, mining, owner, dep, user, tok, rest, ut, p, m, m1, rfl, h1, h2, h3, h4, h5, h6, h7, h8,
      h9, h10, h11, h12, h13, h14, h15, h16, h17, h18, h19, h20, h21, h22⟩ := processClaim_ok hx
    have hdep : dep.key ≠ 0 := hs dep (by simp) h6
    obtain ⟨g1, g2⟩ := pool_slot (h pool.key) h1 h11 h12 hdep (Or.inl h13)
    have hn : ∀ q, (w mining.key).content ≠ .pool q := fun q hq => hc mining (by simp) q ⟨h4, hq⟩
    obtain ⟨v1, _⟩ := mining_view (h mining.key) h4 h16 hn
    obtain ⟨s1, s2, _⟩ := refresh_same g2.ok.history v1 h20
    have hw2 : Wf env now (putMining env w mining.key m1.claim) :=
      wf_putMining h h4 h16 hn ⟨s1.1, s1.2, s1.3, s1.4, s1.5⟩ ⟨s2.1, s2.2⟩
    rcases h22 with ⟨_, h22⟩ | ⟨_, rfl⟩
    · exact wf_transfer hw2 h22
    · exact hw2
  | distributeRewards =>
    simp only [process, res_bind_ok, res_pure_ok, Prod.mk.injEq] at hx
    obtain ⟨w1, hx, rfl, _⟩ := hx
    obtain ⟨pool, dist, rest, p, p', r, rfl, h1, h2, h3, h4, h5, h6, h7, rfl⟩ := processDistributeRewards_ok hx
    have hd : dist.key ≠ 0 := hs dist (by simp) h2
    obtain ⟨g1, g2⟩ := pool_slot (h pool.key) h1 h3 h4 hd (Or.inr (Or.inl h6))
    obtain ⟨s1, s2⟩ := distribute_same g2.ok h7
    exact wf_putPool h g2 s1 s2
  | closeMining =>
    simp only [process, res_bind_ok, res_pure_ok, Prod.mk.injEq] at hx
    obtain ⟨w1, hx, rfl, _⟩ := hx
    obtain ⟨mining, owner, target, dep, pool, rest, p, m, m1, rfl, h1, h2, h3, h4, h5, h6, h7, h8, h9, h10, h11, h12,
      h13, h14, h15, h16, rfl⟩ := processCloseMining_ok hx
    refine wf_set (wf_set h (accOk_lamports (h _) _)) ?_
    exact ⟨(h mining.key).pda, (h mining.key).nonzero, fun _ => Or.inl rfl⟩
  | changeDelegate a nd =>
    simp only [process, res_bind_ok, res_pure_ok, Prod.mk.injEq] at hx
    obtain ⟨w1, hx, rfl, _⟩ := hx
    obtain ⟨pool, mining, dep, owner, oldA, newA, rest, p, m, newD, oldD, p', m', newD', oldD', rfl, h1, h2, h3, h4, h5,
      h6, h7, h8, h9, h10, h11, h12, rfl⟩ := processChangeDelegate_ok hx
    have hdep : dep.key ≠ 0 := hs dep (by simp) h3
    obtain ⟨g1, g2⟩ := pool_slot (h pool.key) h1 h9.plen h9.pview hdep (Or.inl h9.auth)
    obtain ⟨m1, m2, m3⟩ := mining_slot h h2 h1 h9
    have hno : ∀ q, (w oldA.key).content ≠ .pool q := fun q hq => hc oldA (by simp) q ⟨h5, hq⟩
    have hnOk : ∀ x, newD = some x → MiningOk x := by
      intro x hx
      rcases h10 with ⟨_, e⟩ | ⟨_, y, e, e2⟩
      · rw [e] at hx; cases hx
      · rw [e] at hx; cases hx; exact (delegate_slot h h6 e2).1
    have hoOk : ∀ x, oldD = some x → MiningOk x := by
      intro x hx
      rcases h11 with ⟨_, e⟩ | ⟨_, y, e, _, _, e2⟩
      · rw [e] at hx; cases hx
      · rw [e] at hx; cases hx; exact (mining_view (h oldA.key) h5 e2 hno).1
    obtain ⟨q, s1, s2, _, s3, s4⟩ := changeDelegate_same g2.ok m1 hnOk hoOk h12
    have w1 : Wf env now (putPool w pool.key p') := wf_putPool h g2 q.same q.ok
    have e1 : putPool w pool.key p' mining.key = w mining.key := putPool_ne _ _ h8
    have w2 : Wf env now (putMining env (putPool w pool.key p') mining.key m') := by
      refine wf_putMining (m := m) w1 ?_ ?_ ?_ s1 s2
      · rw [e1]; exact h2
      · rw [e1, m2]; rfl
      · intro q; rw [e1, m2]; simp
    have w3 : Wf env now (putDelegate env (putMining env (putPool w pool.key p') mining.key m') oldA.key oldD') := by
      cases oldD' with
      | none => exact w2
      | some x' =>
        rcases h11 with ⟨_, e⟩ | ⟨hne, y, e, e3, _, e2⟩
        · subst e; exact s4.elim
        · subst e
          obtain ⟨t1, t2⟩ := s4
          have e4 : putMining env (putPool w pool.key p') mining.key m' oldA.key = w oldA.key := by
            rw [putMining_ne _ _ (Ne.symm hne), putPool_ne _ _ e3]
          refine wf_putMining (m := y) w2 ?_ ?_ ?_ t1 t2
          · rw [e4]; exact h5
          · rw [e4]; exact e2
          · rw [e4]; exact hno
    cases newD' with
    | none => exact w3
    | some x' =>
      rcases h10 with ⟨_, e⟩ | ⟨hne, y, e, e2⟩
      · subst e; exact s3.elim
      · subst e
        obtain ⟨t1, t2⟩ := s3
        have e4 : putDelegate env (putMining env (putPool w pool.key p') mining.key m') oldA.key oldD' newA.key
            = w newA.key := by
          have e5 : putMining env (putPool w pool.key p') mining.key m' newA.key = w newA.key := by
            rw [putMining_ne _ _ (Ne.symm hne), putPool_ne _ _ e2.ne_pool]
          cases oldD' with
          | none => exact e5
          | some z => simp only [putDelegate]; rw [putMining_ne _ _ h7, e5]
        refine wf_putMining (m := y) w3 ?_ ?_ ?_ t1 t2
        · rw [e4]; exact h6
        · rw [e4]; exact e2.view
        · rw [e4]; exact (delegate_slot h h6 e2).2
  | slash o n mu ex =>
    simp only [process, res_bind_ok, res_pure_ok, Prod.mk.injEq] at hx
    obtain ⟨w1, hx, rfl, _⟩ := hx
    obtain ⟨dep, pool, mining, rest, p, m, p', m', rfl, h1, h2, h3, h4, h5, h6, rfl⟩ := processSlash_ok hx
    have hdep : dep.key ≠ 0 := hs dep (by simp) h1
    obtain ⟨g1, g2⟩ := pool_slot (h pool.key) h2 h5.plen h5.pview hdep (Or.inl h5.auth)
    obtain ⟨m1, m2, m3⟩ := mining_slot h h3 h2 h5
    obtain ⟨q, s1, s2, _⟩ := slash_same g2.ok m1 h6
    have e1 : putPool w pool.key p' mining.key = w mining.key := putPool_ne _ _ h4
    refine wf_putMining (m := m) (wf_putPool h g2 q.same q.ok) ?_ ?_ ?_ s1 s2
    · rw [e1]; exact h3
    · rw [e1, m2]; rfl
    · intro q; rw [e1, m2]; simp
  | decreaseRewards o n =>
    simp only [process, res_bind_ok, res_pure_ok, Prod.mk.injEq] at hx
    obtain ⟨w1, hx, rfl, _⟩ := hx
    obtain ⟨dep, pool, mining, rest, p, m, m', rfl, h1, h2, h3, h4, h5, h6, rfl⟩ := processDecreaseRewards_ok hx
    obtain ⟨m1, m2, m3⟩ := mining_slot h h3 h2 h5
    obtain ⟨s1, s2, _⟩ := decrease_same m1 h6
    refine wf_putMining (m := m) h h3 ?_ ?_ s1 s2
    · rw [m2]; rfl
    · intro q; rw [m2]; simp

theorem apply_ix_ok {s : Chain} {accs : List AccountInfo} {i : Ix} {w' : World} {ret : Option Nat}
    (h : exec env s.now s.world accs i = .ok (w', ret)) : s.apply env (.ix accs i) = { s with world := w' } := by
  simp only [Chain.apply, h]

theorem apply_ix_error {s : Chain} {accs : List AccountInfo} {i : Ix} {e : Err}
    (h : exec env s.now s.world accs i = .error e) : s.apply env (.ix accs i) = s := by
  simp only [Chain.apply, h]

theorem wf_apply {s : Chain} (h : Wf env s.now s.world) {e : Event} (hv : e.Valid env s) (hc : CleanEvent env s e) :
    Wf env (s.apply env e).now (s.apply env e).world := by
  cases e with
  | ix accs i =>
    cases hx : exec env s.now s.world accs i with
    | error _ => rw [apply_ix_error hx]; exact h
    | ok r =>
      obtain ⟨w', ret⟩ := r
      rw [apply_ix_ok hx]
      exact wf_process h hv hc (exec_ok.mp hx).1
  | tick d => exact fun k => (h k).later (Nat.le_add_right _ _)
  | gc k =>
    refine wf_set h ⟨fun _ => Or.inr (Or.inr rfl), fun e => ?_, fun e => ?_⟩
    · exact absurd e.symm env.program_ne_system
    · exact absurd e.symm env.program_ne_system
  | ext w' =>
    obtain ⟨x1, x2, x3, x4⟩ := hv
    intro k
    show AccOk env s.now k (w' k)
    by_cases ho : (s.world k).owner = env.programId
    · obtain ⟨e1, e2, e3, _⟩ := x1 k ho
      have := h k
      refine ⟨fun hp => ?_, fun _ => this.nonzero ho, fun _ => ?_⟩
      · rw [e1, e2]; exact this.pda hp
      · rw [e3, e2]; exact this.content ho
    · refine ⟨fun hp => ?_, fun hp => (x2 k ho hp).2.2, fun hp => Or.inl (x2 k ho hp).1⟩
      rcases (h k).pda hp with ⟨e, _⟩ | e | e
      · exact absurd e ho
      · exact Or.inr (x4 k hp e)
      · exact Or.inr (Or.inr (x3 k hp e).1)

theorem wf_genesis {s : Chain} (h : Genesis env s) : Wf env s.now s.world := by
  intro k
  refine ⟨fun hp => Or.inr (Or.inr (h.pda k hp).1), fun ho => (h.owned k ho).2.2, fun ho => Or.inl (h.owned k ho).1⟩

theorem wf_runs {s s' : Chain} {es : List Event} (h : Wf env s.now s.world) {C : Chain → Event → Prop}
    (hC : ∀ s e, C s e → CleanEvent env s e) (hr : RunsWith env C s es s') : Wf env s'.now s'.world := by
  induction hr with
  | nil => exact h
  | cons hv hc _ ih => exact ih (wf_apply h hv (hC _ _ hc))

theorem reachable_wf {s : Chain} (h : Reachable env s) : Wf env s.now s.world := by
  obtain ⟨s0, es, hg, hr⟩ := h
  exact wf_runs (wf_genesis hg) (fun _ _ h => h) hr

end Verif
