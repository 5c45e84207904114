import Verif.Lemmas.Access
import Verif.Lemmas.DemoExec
import Verif.Spec.Distribution
/-!
Authority and isolation: who may change a pool (C27) or a mining (C28), pools do not affect each other (C29), configuration
and identity (C30-C32), delegates (C33), closing (C34, C35).
-/

namespace Verif

open Spec

section

variable {env : Env}

/-- C27 under the condition that no pool is passed where a mining is expected (without it the claim is false,
`C27_false`).  Every pool account stays a pool account with its lamports and size; if its data changed, it is the pool
argument of the instruction and the authority responsible for this instruction signed. -/
theorem C27_pool_authority_partial {now : Nat} {w w' : World} {accs : List AccountInfo} {i : Ix} {ret : Option Nat}
    (hw : Wf env now w) (hs : RealSigners accs) (hclean : NotPoolAsMining env w accs i)
    (h : exec env now w accs i = .ok (w', ret)) {k : Key} {p : Pool} (hp : PoolAt env w k p) :
    ∃ p', PoolAt env w' k p' ∧ (w' k).lamports = (w k).lamports ∧ (w' k).len = (w k).len ∧
      (p' ≠ p → poolArg accs i = some k ∧ ∃ a, poolSigner p i = some a ∧ Signed accs a) := by
  have hstep := step_of_exec hw hs hclean h
  obtain ⟨p', h1, h2, h3, h4⟩ := hstep.pool hp
  refine ⟨p', h1, h3, h4, fun hne => ⟨hstep.poolChanged hp ?_, ?_⟩⟩
  · intro e
    exact hne (PoolAt.unique h1 ((poolAt_congr e).mpr hp))
  · cases h2 with
    | same => exact absurd rfl hne
    | stake hi _ signed => cases i <;> first | exact ⟨_, rfl, signed⟩ | cases hi
    | distribute _ signed => exact ⟨_, rfl, signed⟩
    | fill _ signed => exact ⟨_, rfl, signed⟩

theorem miningOf_pool (hinj : env.PdaInjective) {now : Nat} {w : World} (hw : Wf env now w) {o P k : Key} {m : Mining}
    (hm : MiningAt env w k m) (hi : m.accountType = 2) (ha : env.miningAddr o P m.bump = some k) :
    m.owner = o ∧ m.rewardPool = P := by
  rcases (miningAt_ok hw hm).2 with h | h
  · have := hinj.mining _ _ _ _ _ _ _ h.addr ha
    exact ⟨this.1, this.2.1⟩
  · rw [h.type] at hi; cases hi

/-- C28 for callers who pass the right old delegate and the right pool (`HonestArgs`; without it `C28_false`): if the data
or lamports of an initialized mining changed, the mining belongs to the pool argument of the instruction, that pool's deposit
authority signed, and for Claim, CloseMining and ChangeDelegate so did the owner of the acting mining. -/
theorem C28_mining_authority_partial {now : Nat} {w w' : World} {accs : List AccountInfo} {i : Ix} {ret : Option Nat}
    (hinj : env.PdaInjective) (hw : Wf env now w) (hs : RealSigners accs) (hclean : NotPoolAsMining env w accs i)
    (hhon : HonestArgs env w accs i) (h : exec env now w accs i = .ok (w', ret)) {k : Key} {m : Mining}
    (hm : MiningAt env w k m) (hi : m.accountType = 2) (hne : w' k ≠ w k) :
    ∃ p, poolArg accs i = some m.rewardPool ∧ PoolAt env w m.rewardPool p ∧ Signed accs p.depositAuthority ∧
      ((i = .claim ∨ i = .closeMining) → miningArg accs i = some k ∧ Signed accs m.owner) ∧
      ((∃ a d, i = .changeDelegate a d) → ∃ M m0, miningArg accs i = some M ∧ MiningAt env w M m0 ∧
        m0.rewardPool = m.rewardPool ∧ Signed accs m0.owner) := by
  rcases (step_of_exec hw hs hclean h).miningChanged hm hne with ⟨P, p, h1, h2, h3, h4⟩ | ⟨f, d, -, hb⟩
  · cases h4 with
    | acting arg own owner notClose =>
      subst own
      refine ⟨p, h1, h2, h3, ?_, ?_⟩
      · rintro (h | h)
        · exact ⟨arg, owner (Or.inl h)⟩
        · exact absurd h notClose
      · intro h; exact ⟨k, m, arg, hm, rfl, owner (Or.inr h)⟩
    | delegate arg addr actor mining own owner notClaim =>
      obtain ⟨-, rfl⟩ := miningOf_pool hinj hw hm hi addr
      refine ⟨p, h1, h2, h3, ?_, ?_⟩
      · rintro (h | h)
        · exact absurd h notClaim.1
        · exact absurd h notClaim.2
      · intro h; exact ⟨_, _, actor, mining, own, owner h⟩
    | @old a d M m0 arg actor mining own owner =>
      simp only [oldDelegateArg, Option.map_eq_some_iff] at arg
      simp only [poolArg, Option.map_eq_some_iff] at h1
      obtain ⟨x, hx, rfl⟩ := arg
      obtain ⟨y, hy, rfl⟩ := h1
      have e := hhon x y m hx hy hm hi
      refine ⟨p, ?_, by rw [e]; exact h2, h3, ?_, ?_⟩
      · simp only [poolArg, hy, Option.map_some, e]
      · rintro (h | h) <;> cases h
      · intro _; exact ⟨M, m0, actor, mining, by rw [own, e], owner⟩
    | close arg owner =>
      have arg' := arg
      simp only [miningArg, Option.map_eq_some_iff] at arg
      simp only [poolArg, Option.map_eq_some_iff] at h1
      obtain ⟨x, hx, rfl⟩ := arg
      obtain ⟨y, hy, rfl⟩ := h1
      have e := hhon x y m hx hy hm
      refine ⟨p, ?_, by rw [e]; exact h2, h3, fun _ => ⟨arg', owner⟩, ?_⟩
      · simp only [poolArg, hy, Option.map_some, e]
      · rintro ⟨_, _, h⟩; cases h
  · rw [hb.type] at hi; cases hi

/-- C28, what holds whatever old delegate or pool is passed: a mining changes only if the deposit authority of the pool
argument signed; Claim changes only the mining of a signing owner in that pool; CloseMining only the mining of a signing
owner; the others only the acting mining, which belongs to that pool, its (new) delegate, or ChangeDelegate's old delegate. -/
theorem C28_any_arguments_partial {now : Nat} {w w' : World} {accs : List AccountInfo} {i : Ix} {ret : Option Nat}
    (hw : Wf env now w) (hs : RealSigners accs) (hclean : NotPoolAsMining env w accs i)
    (h : exec env now w accs i = .ok (w', ret)) {k : Key} {m : Mining}
    (hm : MiningAt env w k m) (hi : m.accountType = 2) (hne : w' k ≠ w k) :
    ∃ P p, poolArg accs i = some P ∧ PoolAt env w P p ∧ Signed accs p.depositAuthority ∧
      (i = .claim → miningArg accs i = some k ∧ Signed accs m.owner ∧ m.rewardPool = P) ∧
      (i = .closeMining → miningArg accs i = some k ∧ Signed accs m.owner) ∧
      (miningArg accs i = some k ∧ (i ≠ .closeMining → m.rewardPool = P) ∨ delegateArg accs i = some k ∨
        oldDelegateArg accs i = some k) := by
  rcases (step_of_exec hw hs hclean h).miningChanged hm hne with ⟨P, p, h1, h2, h3, h4⟩ | ⟨f, d, -, hb⟩
  · refine ⟨P, p, h1, h2, h3, ?_⟩
    cases h4 with
    | acting arg own owner notClose =>
      exact ⟨fun e => ⟨arg, owner (Or.inl e), own⟩, fun e => absurd e notClose, Or.inl ⟨arg, fun _ => own⟩⟩
    | delegate arg addr actor mining own owner notClaim =>
      exact ⟨fun e => absurd e notClaim.1, fun e => absurd e notClaim.2, Or.inr (Or.inl arg)⟩
    | old arg => exact ⟨Ix.noConfusion, Ix.noConfusion, Or.inr (Or.inr arg)⟩
    | close arg owner => exact ⟨Ix.noConfusion, fun _ => ⟨arg, owner⟩, Or.inl ⟨arg, fun e => absurd rfl e⟩⟩
  · rw [hb.type] at hi; cases hi

/-- C29 under the same conditions (`C29_false` without): an instruction executed for pool `P` leaves every other pool
and every mining of another pool exactly as it was. -/
theorem C29_isolation_partial {now : Nat} {w w' : World} {accs : List AccountInfo} {i : Ix} {ret : Option Nat}
    (hinj : env.PdaInjective) (hw : Wf env now w) (hs : RealSigners accs) (hclean : NotPoolAsMining env w accs i)
    (hhon : HonestArgs env w accs i) (h : exec env now w accs i = .ok (w', ret)) {P : Key}
    (hP : poolArg accs i = some P) :
    (∀ k p, PoolAt env w k p → k ≠ P → w' k = w k) ∧
    (∀ k m, MiningAt env w k m → m.accountType = 2 → m.rewardPool ≠ P → w' k = w k) := by
  refine ⟨fun k p hp hk => ?_, fun k m hm hi hk => ?_⟩
  · apply Classical.byContradiction
    intro hne
    have := (step_of_exec hw hs hclean h).poolChanged hp hne
    rw [hP] at this; cases this; exact hk rfl
  · apply Classical.byContradiction
    intro hne
    obtain ⟨p, h1, -⟩ := C28_mining_authority_partial hinj hw hs hclean hhon h hm hi hne
    rw [hP] at h1; cases h1; exact hk rfl

/-- C30, over any history: a pool account stays a pool with the same three authorities, mint, bump (hence the same vault
address), and every attempt to initialize it again fails. -/
theorem C30_configuration {s s' : Chain} {es : List Event} (hw : Wf env s.now s.world) (hr : CleanRun env s es s')
    {k : Key} {p : Pool} (hp : PoolAt env s.world k p) (hl : 0 < (s.world k).lamports) :
    ∃ p', PoolAt env s'.world k p' ∧ SameConfig p p' ∧
      env.vaultAddr k p'.rewardMint p'.bump = env.vaultAddr k p.rewardMint p.bump ∧
      ∀ accs f d, accs[0]?.map (·.key) = some k → RealSigners accs →
        ∃ e, exec env s'.now s'.world accs (.initializePool f d) = .error e := by
  obtain ⟨p', h1, -, h2⟩ := runs_pool hw hr hp hl (fun _ q => SamePool p q) (.refl p)
    (fun s e q q' _ _ _ hq he => hq.trans he.same_pool)
  refine ⟨p', h1, ⟨h2.1, h2.2, h2.3, h2.4, h2.5, h2.6⟩, by rw [h2.4, h2.5], fun accs f d ha hs => ?_⟩
  cases hx : exec env s'.now s'.world accs (.initializePool f d) with
  | error e => exact ⟨e, rfl⟩
  | ok r =>
    obtain ⟨w2, ret⟩ := r
    exfalso
    have hw' := wf_runs hw (fun _ _ h => h) hr
    have hstep := step_of_exec hw' hs (by exact trivial) hx
    cases hstep with
    | stake _ op => exact op.elim
    | @initPool f d P T V Y A R K S rest bump accs_eq signedY signedA owned len fresh =>
      subst accs_eq
      simp only [List.getElem?_cons_zero, Option.map_some, Option.some.injEq] at ha
      subst ha
      rcases fresh with h5 | ⟨m, h5, -⟩
      · rw [h1.2] at h5; cases h5
      · rw [h1.2] at h5; cases h5

/-- C31, creation.  InitializeMining succeeds only on an account that did not exist (no lamports, no data, not the
program's) at the address derived from owner and pool; what it creates has no stake, no rewards and no expirations, belongs
to the named owner and the pool argument; nothing else but the payer changes.  In particular it fails on an existing
mining. -/
theorem C31_create {now : Nat} {w w' : World} {accs : List AccountInfo} {o : Key} {ret : Option Nat}
    (hw : Wf env now w) (hs : RealSigners accs) (h : exec env now w accs (.initializeMining o) = .ok (w', ret)) :
    ∃ P M Y m, poolArg accs (.initializeMining o) = some P ∧ miningArg accs (.initializeMining o) = some M ∧
      accs[2]?.map (·.key) = some Y ∧ Signed accs Y ∧
      env.findMining o P = some (M, m.bump) ∧ env.miningAddr o P m.bump = some M ∧
      (w M).owner = env.systemProgram ∧ (w M).len = 0 ∧ (w M).lamports = 0 ∧ (w P).owner = env.programId ∧
      MiningAt env w' M m ∧ m.owner = o ∧ m.rewardPool = P ∧ m.accountType = 2 ∧ m.share = 0 ∧ m.unclaimed = 0 ∧
      m.stakeFromOthers = 0 ∧ m.index = 0 ∧ m.diffs = [] ∧ (∀ k, k ≠ M → k ≠ Y → w' k = w k) ∧
      (w' Y).content = (w Y).content ∧ (w' Y).owner = (w Y).owner ∧ (∀ m0, ¬ MiningAt env w M m0) := by
  have hstep := step_of_exec hw hs (by exact trivial) h
  cases hstep with
  | stake _ op => exact op.elim
  | @initMining o P M Y S rest bump accs_eq signedY owned addr before mining' payer payer' frame ne neP =>
    subst accs_eq
    refine ⟨P.key, M.key, Y.key, Mining.init P.key o bump, rfl, rfl, rfl, ⟨Y, by simp, rfl, signedY⟩, addr,
      env.findMining_spec _ _ _ _ addr, before.2.2, before.2.1, before.1, owned, ⟨by rw [mining'], by rw [mining']⟩, rfl, rfl,
      rfl, rfl, rfl, rfl, rfl, rfl, frame, by rw [payer'], by rw [payer'], ?_⟩
    intro m0 h0
    exact env.program_ne_system (h0.1.symm.trans before.2.2)

/-- C31, over any history: as long as no CloseMining succeeds on it, an initialized mining stays a mining with the same
owner, pool and bump. -/
theorem C31_identity {s s' : Chain} {es : List Event} (hw : Wf env s.now s.world) (hr : CleanRun env s es s')
    {k : Key} {m : Mining} (hm : MiningAt env s.world k m) (hi : m.accountType = 2) (hl : 0 < (s.world k).lamports) :
    (∃ m', MiningAt env s'.world k m' ∧ SameIdentity m m') ∨
    (∃ es1 es2 s1 accs w2 ret, es = es1 ++ .ix accs .closeMining :: es2 ∧ CleanRun env s es1 s1 ∧
      exec env s1.now s1.world accs .closeMining = .ok (w2, ret) ∧ miningArg accs .closeMining = some k ∧
      ∃ m1, MiningAt env s1.world k m1 ∧ SameIdentity m m1) := by
  have key : ∀ {s s' : Chain} {es : List Event}, RunsWith env (CleanEvent env) s es s' → Wf env s.now s.world →
      ∀ {m1 : Mining}, MiningAt env s.world k m1 → SameMining m m1 → 0 < (s.world k).lamports →
      (∃ m', MiningAt env s'.world k m' ∧ SameIdentity m m') ∨
      (∃ es1 es2 s1 accs w2 ret, es = es1 ++ .ix accs .closeMining :: es2 ∧ CleanRun env s es1 s1 ∧
        exec env s1.now s1.world accs .closeMining = .ok (w2, ret) ∧ miningArg accs .closeMining = some k ∧
        ∃ m1, MiningAt env s1.world k m1 ∧ SameIdentity m m1) := by
    intro s s' es hr
    induction hr with
    | nil s => intro _ m1 hm hsame _; exact Or.inl ⟨m1, hm, hsame.identity⟩
    | @cons s s' e es hv hc hrest ih =>
      intro hw m1 hm hsame hl
      rcases apply_mining hw hv hc hm (hsame.5.trans hi) hl with ⟨m2, g1, g2, g3⟩ | ⟨accs, w2, ret, rfl, g2, g3⟩
      · rcases ih (wf_apply hw hv hc) g1 (hsame.trans g2) g3 with h | ⟨es1, es2, s1, accs, w2, ret, rfl, h2, h3⟩
        · exact Or.inl h
        · exact Or.inr ⟨e :: es1, es2, s1, accs, w2, ret, rfl, .cons hv hc h2, h3⟩
      · exact Or.inr ⟨[], es, s, accs, w2, ret, rfl, .nil s, g2, g3, m1, hm, hsame.identity⟩
  exact key hr hw hm (.refl m) hl

/-- C32: in every reachable state every initialized mining lies at the address the program derives from its owner and pool,
with its bump; so there is at most one per owner and pool. -/
theorem C32_address {s : Chain} (h : Reachable env s) {k : Key} {m : Mining} (hm : MiningAt env s.world k m)
    (hi : m.accountType = 2) :
    env.findMining m.owner m.rewardPool = some (k, m.bump) ∧ env.miningAddr m.owner m.rewardPool m.bump = some k ∧
    ∀ k' m', MiningAt env s.world k' m' → m'.accountType = 2 → m'.owner = m.owner → m'.rewardPool = m.rewardPool →
      k' = k ∧ m' = m := by
  have key : ∀ {k : Key} {m : Mining}, MiningAt env s.world k m → m.accountType = 2 →
      env.findMining m.owner m.rewardPool = some (k, m.bump) := by
    intro k m hm hi
    rcases reachable_mining h hm with hb | ⟨-, hb⟩
    · rw [hb.type] at hi; cases hi
    · exact hb
  refine ⟨key hm hi, env.findMining_spec _ _ _ _ (key hm hi), fun k' m' hm' hi' ho hp => ?_⟩
  have h1 := key hm' hi'
  rw [ho, hp, key hm hi] at h1
  have h2 : k = k' := congrArg Prod.fst (Option.some.inj h1)
  subst h2
  exact ⟨rfl, MiningAt.unique hm' hm⟩

/-- C33: the (new) delegate account, if it is not the acting mining itself, has the address derived from the named wallet
and the pool argument; if it is an initialized mining, it is the one of that wallet in that pool. -/
theorem C33_delegate {now : Nat} {w w' : World} {accs : List AccountInfo} {i : Ix} {ret : Option Nat}
    (hw : Wf env now w) (h : exec env now w accs i = .ok (w', ret)) {d : Key} (hd : delegateWallet i = some d) :
    ∃ P M D, poolArg accs i = some P ∧ miningArg accs i = some M ∧ delegateArg accs i = some D ∧
      (D ≠ M → (w D).owner = env.programId ∧ (∃ bump, env.miningAddr d P bump = some D) ∧ D ≠ P ∧
        ∀ x, MiningAt env w D x → env.miningAddr d P x.bump = some D ∧
          (env.PdaInjective → x.accountType = 2 → x.owner = d ∧ x.rewardPool = P)) := by
  have fin : ∀ {P D : Key} {x : Mining}, (w D).owner = env.programId → DelegateOk env w D d P x →
      (w D).owner = env.programId ∧ (∃ bump, env.miningAddr d P bump = some D) ∧ D ≠ P ∧
        ∀ x, MiningAt env w D x → env.miningAddr d P x.bump = some D ∧
          (env.PdaInjective → x.accountType = 2 → x.owner = d ∧ x.rewardPool = P) := by
    intro P D x ho hx
    refine ⟨ho, ⟨_, hx.addr⟩, hx.ne_pool, fun y hy => ?_⟩
    have e := hx.view
    rw [hy.2] at e
    simp only [viewMining, Option.some.injEq] at e
    subst e
    exact ⟨hx.addr, fun hinj hi => miningOf_pool hinj hw hy hi hx.addr⟩
  have stake : ∀ {owner : Key} {pool mining dep del : AccountInfo} {p : Pool} {m : Mining} {dm : Option Mining},
      StakeCall env w accs owner d pool mining dep del p m dm →
      accs[0]?.map (·.key) = some pool.key ∧ accs[1]?.map (·.key) = some mining.key ∧
      accs[3]?.map (·.key) = some del.key ∧
      (del.key ≠ mining.key → (w del.key).owner = env.programId ∧ (∃ bump, env.miningAddr d pool.key bump = some del.key) ∧
        del.key ≠ pool.key ∧
        ∀ x, MiningAt env w del.key x → env.miningAddr d pool.key x.bump = some del.key ∧
          (env.PdaInjective → x.accountType = 2 → x.owner = d ∧ x.rewardPool = pool.key)) := by
    intro owner pool mining dep del p m dm hc
    obtain ⟨rest, rfl⟩ := hc.accs_eq
    refine ⟨rfl, rfl, rfl, fun hne => ?_⟩
    rcases hc.delegate with ⟨e, -⟩ | ⟨-, x, -, hx⟩
    · exact absurd e.symm hne
    · exact fin hc.del_owned hx
  have hp := (exec_ok.mp h).1
  cases i with
  | depositMining a l o d' =>
    cases hd
    simp only [process, res_bind_ok, res_pure_ok, Prod.mk.injEq] at hp
    obtain ⟨w1, hp, rfl, rfl⟩ := hp
    obtain ⟨pool, mining, dep, del, p, m, dm, p', m', d', hc, -⟩ := processDepositMining_ok hp
    exact ⟨_, _, _, stake hc⟩
  | withdrawMining a o d' =>
    cases hd
    simp only [process, res_bind_ok, res_pure_ok, Prod.mk.injEq] at hp
    obtain ⟨w1, hp, rfl, rfl⟩ := hp
    obtain ⟨pool, mining, dep, del, p, m, dm, p', m', d', hc, -⟩ := processWithdrawMining_ok hp
    exact ⟨_, _, _, stake hc⟩
  | extendStake ol nl ts b a o d' =>
    cases hd
    simp only [process, res_bind_ok, res_pure_ok, Prod.mk.injEq] at hp
    obtain ⟨w1, hp, rfl, rfl⟩ := hp
    obtain ⟨pool, mining, dep, del, p, m, dm, p', m', d', hc, -⟩ := processExtendStake_ok hp
    exact ⟨_, _, _, stake hc⟩
  | changeDelegate a d' =>
    cases hd
    simp only [process, res_bind_ok, res_pure_ok, Prod.mk.injEq] at hp
    obtain ⟨w1, hp, rfl, rfl⟩ := hp
    obtain ⟨pool, mining, dep, owner, oldA, newA, rest, p, m, newD, oldD, p', m', newD', oldD', rfl, h1, h2, h3, h4, h5, h6,
      h7, h8, h9, h10, -⟩ := processChangeDelegate_ok hp
    refine ⟨_, _, _, rfl, rfl, rfl, fun hne => ?_⟩
    rcases h10 with ⟨e, -⟩ | ⟨-, x, -, hx⟩
    · exact absurd e.symm hne
    · exact fin h6 hx
  | _ => cases hd

/-- C34.  CloseMining succeeds only if the mining's owner and the deposit authority of the pool argument signed, nothing is
delegated to the mining, nothing unclaimed is stored, and less than one token per expired lock date plus one is still owed; it
sends exactly the mining's lamports to the target account, erases the data, and touches nothing else. -/
theorem C34_close {now : Nat} {w w' : World} {accs : List AccountInfo} {ret : Option Nat} (hw : Wf env now w)
    (hs : RealSigners accs) (hclean : NotPoolAsMining env w accs .closeMining)
    (h : exec env now w accs .closeMining = .ok (w', ret)) :
    ∃ M G P m p, miningArg accs .closeMining = some M ∧ accs[2]?.map (·.key) = some G ∧
      poolArg accs .closeMining = some P ∧ MiningAt env w M m ∧ m.accountType = 2 ∧ PoolAt env w P p ∧
      Signed accs m.owner ∧ Signed accs p.depositAuthority ∧
      m.stakeFromOthers = 0 ∧ m.unclaimed = 0 ∧
      entitlement m p.cumulative now < 10 ^ 16 * (expiredCount m (midnight now) + 1) ∧
      G ≠ M ∧ w' M = { w M with lamports := 0, content := .zero } ∧
      w' G = { w G with lamports := (w G).lamports + (w M).lamports } ∧ ∀ k, k ≠ M → k ≠ G → w' k = w k := by
  have hstep := step_of_exec hw hs hclean h
  cases hstep with
  | stake _ op => exact op.elim
  | @close M O G A P rest p m m1 accs_eq signedO signedA good pool auth mining init miningOk owner refreshed sfo paid target
      closed credited frame ne neG =>
    subst accs_eq
    obtain ⟨c, rfl, h1, h2, h3, h4, h5, h6⟩ := refresh_ok good.ok.history miningOk.sorted refreshed
    rw [bod_eq_midnight] at *
    have h7 : m.unclaimed = 0 ∧ c = 0 := by simp only at paid; omega
    obtain ⟨h7, rfl⟩ := h7
    refine ⟨M.key, G.key, P.key, m, p, rfl, rfl, rfl, mining, init.type, pool, ⟨O, by simp, owner.symm, signedO⟩,
      ⟨A, by simp, auth.symm, signedA⟩, sfo, h7, by rw [Nat.zero_add] at h6; exact h6, neG, closed, credited, frame⟩

/-- C35 for a mining without stake from day `x` (today or later): closing it changes no pool and, on that day, no sum of
stakes over any set of accounts, so a total that matched the minings still does.
Missing for the full claim: the program does not require the stake to be 0, see `C35_false`. -/
theorem C35_close_empty_partial {now : Nat} {w w' : World} {accs : List AccountInfo} {ret : Option Nat} {M : Key}
    {m : Mining} (hw : Wf env now w) (hs : RealSigners accs) (hclean : NotPoolAsMining env w accs .closeMining)
    (h : exec env now w accs .closeMining = .ok (w', ret)) (hM : miningArg accs .closeMining = some M)
    (hm : MiningAt env w M m) {x : Nat} (hempty : earningOn m x = 0) :
    (∀ k p, PoolAt env w k p ↔ PoolAt env w' k p) ∧
    (∀ ks, sumOver (stakeAt env w' x) ks = sumOver (stakeAt env w x) ks) := by
  have hstep := step_of_exec hw hs hclean h
  cases hstep with
  | stake _ op => exact op.elim
  | @close M O G A P rest p m1 m2 accs_eq signedO signedA good pool auth mining init miningOk owner refreshed sfo paid target
      closed credited frame ne neG =>
    subst accs_eq
    simp only [miningArg, List.getElem?_cons_zero, Option.map_some, Option.some.injEq] at hM
    subst hM
    obtain rfl := MiningAt.unique hm mining
    refine ⟨fun k q => ?_, fun ks => ?_⟩
    · by_cases e : k = M.key
      · subst e
        refine ⟨fun hq => absurd mining (PoolAt.not_mining hq), fun hq => ?_⟩
        have := hq.2; rw [closed] at this; cases this
      by_cases e2 : k = G.key
      · subst e2
        refine ⟨fun hq => absurd (hq.1.symm.trans target) env.program_ne_system, fun hq => ?_⟩
        have := hq.1; rw [credited] at this
        exact absurd (this.symm.trans target) env.program_ne_system
      · exact (poolAt_congr (frame k e e2)).symm
    · have key : stakeAt env w' x = stakeAt env w x := by
        funext k
        unfold stakeAt
        by_cases e : k = M.key
        · subst e; simp [closed, mining.2, hempty]
        by_cases e2 : k = G.key
        · subst e2
          rw [credited]
        · rw [frame k e e2]
      rw [key]

end

/-! ### Examples: the hypotheses are met -/

section Examples

open Demo

/-- C27: a deposit changes pool 100. -/
example : ∃ w' p p', Succeeds afterStory [W 100, W (mine 121 100), S 110, W (mine 121 100)] (.depositMining 5 .flex 121 121) w'
    ∧ PoolAt env afterStory.world 100 p ∧ PoolAt env w' 100 p' ∧ p' ≠ p := by
  have hok : okEvent afterStory (deposit 100 121 5 .flex 121) = true := by decide +kernel
  obtain ⟨w', h⟩ := succeeds afterStory_reachable hok
  obtain ⟨ret, hx⟩ := h.ok
  obtain ⟨ret', hx'⟩ := exec_of_ok hok
  have e := hx.symm.trans hx'
  cases e
  have h1 : hasPool afterStory.world 100 (fun p => hasPool (afterStory.apply env (deposit 100 121 5 .flex 121)).world 100
    (fun p' => decide (p' ≠ p))) = true := by decide +kernel
  obtain ⟨p, hp, h1⟩ := hasPool_sound h1
  obtain ⟨p', hp', h1⟩ := hasPool_sound h1
  exact ⟨_, p, p', h, hp, hp', of_decide_eq_true h1⟩

/-- C28, C29, C33: user 120 moves their delegated stake from 121 to themselves. -/
example : ∃ w', Succeeds afterStory [W 100, W (mine 120 100), S 110, S 120, W (mine 121 100), W (mine 120 100)]
      (.changeDelegate 500 120) w' ∧
    HonestArgs env afterStory.world [W 100, W (mine 120 100), S 110, S 120, W (mine 121 100), W (mine 120 100)]
      (.changeDelegate 500 120) ∧ env.PdaInjective := by
  obtain ⟨w', h⟩ := succeeds afterStory_reachable
    (show okEvent afterStory (redelegate 100 120 500 121 120) = true by decide +kernel)
  refine ⟨w', h, ?_, env_injective⟩
  intro a b m ha hb hm _
  cases ha; cases hb
  obtain ⟨m0, h0, h1⟩ := hasMining_sound
    (show hasMining afterStory.world (mine 121 100) (fun m => decide (m.rewardPool = 100)) = true by decide +kernel)
  rw [MiningAt.unique hm h0]
  exact of_decide_eq_true h1

/-- C28, C29, C34, C35: a mining without stake is closed. -/
def closing : List Event := [initPool 100, initMining 100 120, .tick 1000]

example : ∃ s w', Reachable env s ∧ Succeeds s [W (mine 120 100), S 120, W 102, S 110, R 100] .closeMining w' ∧
    ∃ m, MiningAt env s.world (mine 120 100) m ∧ m.accountType = 2 ∧ m.rewardPool = 100 ∧ earningOn m day0 = 0 := by
  have hr := after_reachable (es := closing) (by decide +kernel)
  obtain ⟨w', h⟩ := succeeds hr (show okEvent _ (close 100 120) = true by decide +kernel)
  obtain ⟨m, h1, h2⟩ := hasMining_sound (show hasMining ((run s0 closing).getD s0).world (mine 120 100)
    (fun m => decide (m.accountType = 2 ∧ m.rewardPool = 100 ∧ earningOn m day0 = 0)) = true by decide +kernel)
  exact ⟨_, w', hr, h, m, h1, by simpa using h2⟩

/-- C30, C31: pool 100 and mining 121 exist, have lamports, and the history goes on, including a later initialization of
another mining. -/
example : ∃ s', CleanRun env afterStory [.tick DAY, distribute 100, initPool 200, initMining 200 121, claim 100 121 131] s' ∧
    (∃ p, PoolAt env afterStory.world 100 p) ∧ (∃ m, MiningAt env afterStory.world (mine 121 100) m ∧ m.accountType = 2) ∧
    0 < (afterStory.world 100).lamports ∧ 0 < (afterStory.world (mine 121 100)).lamports := by
  obtain ⟨s', h⟩ := some_run (s := afterStory)
    (es := [.tick DAY, distribute 100, initPool 200, initMining 200 121, claim 100 121 131]) (by decide +kernel)
  obtain ⟨p, hp, -⟩ := hasPool_sound (show hasPool afterStory.world 100 (fun _ => true) = true by decide +kernel)
  obtain ⟨m, hm, h1⟩ := hasMining_sound
    (show hasMining afterStory.world (mine 121 100) (fun m => decide (m.accountType = 2)) = true by decide +kernel)
  exact ⟨s', h, ⟨p, hp⟩, ⟨m, hm, by simpa using h1⟩, by decide +kernel, by decide +kernel⟩

example : ∃ w', Succeeds afterStory [R 100, W (mine 150 100), SW 102, R 3] (.initializeMining 150) w' :=
  succeeds afterStory_reachable (show okEvent afterStory (initMining 100 150) = true by decide +kernel)

end Examples

/-! ### Counterexamples -/

section Counterexamples

open Demo

/-- An attacker (deposit authority 210, wallet 121) has their own pool 200; the victim is the empty pool 100. -/
def confusion : List Event :=
  [initPool 100, initPoolBy 200 210, initMining 200 121, depositBy 200 210 121 1 .flex 121,
   fill 200 10 (day0 + 10 * DAY), distribute 200, .tick DAY]

/-- C27 fails without the restriction: ChangeDelegate in pool 200, with pool 100 passed as the old delegate's mining, changes
the reward mint of pool 100 although none of its authorities signed. -/
theorem C27_false : ∃ (env : Env) (s : Chain) (accs : List AccountInfo) (i : Ix) (w' : World) (ret : Option Nat)
    (p p' : Pool), Reachable env s ∧ RealSigners accs ∧ exec env s.now s.world accs i = .ok (w', ret) ∧
      PoolAt env s.world 100 p ∧ PoolAt env w' 100 p' ∧ p'.rewardMint ≠ p.rewardMint ∧
      ¬ Signed accs p.depositAuthority ∧ ¬ Signed accs p.distributeAuthority ∧ ¬ Signed accs p.fillAuthority := by
  have hr := after_reachable (es := confusion) (by decide +kernel)
  have hx : ∃ w', (∃ ret, exec env ((run s0 confusion).getD s0).now ((run s0 confusion).getD s0).world
      [W 200, W (mine 121 200), S 210, S 121, W 100, W (mine 121 200)] (.changeDelegate 0 121) = .ok (w', ret)) ∧
      hasPool ((run s0 confusion).getD s0).world 100 (fun p => hasPool w' 100 (fun p' =>
        decide (p'.rewardMint ≠ p.rewardMint ∧ p.depositAuthority = 110 ∧ p.distributeAuthority = 111 ∧
          p.fillAuthority = 112))) = true := by
    cases hx : exec env ((run s0 confusion).getD s0).now ((run s0 confusion).getD s0).world
      [W 200, W (mine 121 200), S 210, S 121, W 100, W (mine 121 200)] (.changeDelegate 0 121) with
    | error e =>
      have : (match exec env ((run s0 confusion).getD s0).now ((run s0 confusion).getD s0).world
        [W 200, W (mine 121 200), S 210, S 121, W 100, W (mine 121 200)] (.changeDelegate 0 121) with
        | .ok _ => true | .error _ => false) = true := by decide +kernel
      rw [hx] at this; cases this
    | ok r =>
      refine ⟨r.1, ⟨r.2, rfl⟩, ?_⟩
      have : (match exec env ((run s0 confusion).getD s0).now ((run s0 confusion).getD s0).world
        [W 200, W (mine 121 200), S 210, S 121, W 100, W (mine 121 200)] (.changeDelegate 0 121) with
        | .ok r => hasPool ((run s0 confusion).getD s0).world 100 (fun p => hasPool r.1 100 (fun p' =>
          decide (p'.rewardMint ≠ p.rewardMint ∧ p.depositAuthority = 110 ∧ p.distributeAuthority = 111 ∧
            p.fillAuthority = 112)))
        | .error _ => false) = true := by decide +kernel
      rw [hx] at this
      exact this
  obtain ⟨w', ⟨ret, hx⟩, h⟩ := hx
  obtain ⟨p, hp, h⟩ := hasPool_sound h
  obtain ⟨p', hp', h⟩ := hasPool_sound h
  simp only [decide_eq_true_eq] at h
  obtain ⟨h1, h2, h3, h4⟩ := h
  refine ⟨env, _, _, _, w', ret, p, p', hr, ?_, hx, hp, hp', h1, ?_, ?_, ?_⟩
  · unfold RealSigners; decide
  · rw [h2]; unfold Signed; decide
  · rw [h3]; unfold Signed; decide
  · rw [h4]; unfold Signed; decide

/-- C30 fails without the restriction as well: an event that is possible in a reachable state changes the configuration of
an initialized pool. -/
theorem C30_confused_false : ∃ (env : Env) (s : Chain) (e : Event) (p p' : Pool), Reachable env s ∧ e.Valid env s ∧
    PoolAt env s.world 100 p ∧ PoolAt env (s.apply env e).world 100 p' ∧ ¬ SameConfig p p' := by
  obtain ⟨env, s, accs, i, w', ret, p, p', hr, hs, hx, hp, hp', hne, -⟩ := C27_false
  refine ⟨env, s, .ix accs i, p, p', hr, hs, hp, ?_, fun h => hne ?_⟩
  · rw [apply_ix_ok hx]; exact hp'
  · exact h.2.2.2.1

/-- An attacker (deposit authority 210, wallet 121) funds their own pool 200 with 50 tokens; in pool 100, filled by others,
nothing has been distributed yet. -/
def foreign : List Event :=
  [initPool 100, initMining 100 121, initMining 100 120, deposit 100 121 1000 .flex 121, deposit 100 120 7 .flex 121,
   fill 100 10000 (day0 + 10 * DAY), initPoolBy 200 210, initMining 200 121, depositBy 200 210 121 10 .flex 121,
   fill 200 50 day0, distribute 200, .tick DAY]

/-- C28 and C29 fail without the restriction: ChangeDelegate in pool 200, with a mining of pool 100 passed as old delegate,
removes stake delegated in pool 100 and credits that mining from pool 200's index, although nothing has been distributed in
pool 100, and nobody responsible for pool 100 signed. -/
theorem C29_false : ∃ (env : Env) (s : Chain) (accs : List AccountInfo) (i : Ix) (w' : World) (ret : Option Nat) (k : Key)
    (m m' : Mining) (p : Pool), env.PdaInjective ∧ Reachable env s ∧ RealSigners accs ∧ NotPoolAsMining env s.world accs i ∧
      exec env s.now s.world accs i = .ok (w', ret) ∧ poolArg accs i = some 200 ∧
      MiningAt env s.world k m ∧ MiningAt env w' k m' ∧ m.accountType = 2 ∧ m.rewardPool = 100 ∧
      PoolAt env s.world 100 p ∧ p.cumulative = [] ∧ ¬ Signed accs p.depositAuthority ∧
      m.stakeFromOthers = 7 ∧ m'.stakeFromOthers = 0 ∧ m.unclaimed = 0 ∧ m'.unclaimed = 5000 := by
  have hr := after_reachable (es := foreign) (by decide +kernel)
  have hok : okEvent ((run s0 foreign).getD s0)
    (.ix [W 200, W (mine 121 200), S 210, S 121, W (mine 121 100), W (mine 121 200)] (.changeDelegate 7 121)) = true := by
    decide +kernel
  obtain ⟨ret, hx⟩ := exec_of_ok hok
  obtain ⟨hv, hc⟩ := okEvent_sound hok
  have h : hasMining ((run s0 foreign).getD s0).world (mine 121 100) (fun m => hasPool ((run s0 foreign).getD s0).world 100
      (fun p => hasMining (((run s0 foreign).getD s0).apply env
        (.ix [W 200, W (mine 121 200), S 210, S 121, W (mine 121 100), W (mine 121 200)] (.changeDelegate 7 121))).world
        (mine 121 100) (fun m' => decide (m.accountType = 2 ∧ m.rewardPool = 100 ∧ p.cumulative = [] ∧
          p.depositAuthority = 110 ∧ m.stakeFromOthers = 7 ∧ m'.stakeFromOthers = 0 ∧ m.unclaimed = 0 ∧
          m'.unclaimed = 5000)))) = true := by decide +kernel
  obtain ⟨m, hm, h⟩ := hasMining_sound h
  obtain ⟨p, hp, h⟩ := hasPool_sound h
  obtain ⟨m', hm', h⟩ := hasMining_sound h
  simp only [decide_eq_true_eq] at h
  obtain ⟨h1, h2, h3, h4, h5⟩ := h
  exact ⟨env, _, _, .changeDelegate 7 121, _, ret, _, m, m', p, env_injective, hr, hv, hc, hx, rfl, hm, hm', h1, h2, hp, h3,
    by rw [h4]; unfold Signed; decide, h5⟩

/-- In pool 100 a distribution has taken place; pool 200 is new. -/
def unpaid : List Event :=
  [initPool 100, initMining 100 120, deposit 100 120 7 .flex 120, fill 100 10000 (day0 + 10 * DAY), distribute 100,
   initPoolBy 200 210, .tick DAY]

/-- C28 fails as well for CloseMining: a mining of pool 100 is closed with the signature of the deposit authority of pool
200 only, although rewards of pool 100 are due to it. -/
theorem C28_false : ∃ (env : Env) (s : Chain) (accs : List AccountInfo) (w' : World) (ret : Option Nat) (k : Key)
    (m : Mining) (p : Pool), env.PdaInjective ∧ Reachable env s ∧ RealSigners accs ∧
      NotPoolAsMining env s.world accs .closeMining ∧ exec env s.now s.world accs .closeMining = .ok (w', ret) ∧
      MiningAt env s.world k m ∧ (∀ m', ¬ MiningAt env w' k m') ∧ m.accountType = 2 ∧ m.rewardPool = 100 ∧
      PoolAt env s.world 100 p ∧ ¬ Signed accs p.depositAuthority ∧ 10 ^ 16 ≤ entitlement m p.cumulative s.now := by
  have hr := after_reachable (es := unpaid) (by decide +kernel)
  have hok : okEvent ((run s0 unpaid).getD s0)
    (.ix [W (mine 120 100), S 120, W 102, S 210, R 200] .closeMining) = true := by decide +kernel
  obtain ⟨ret, hx⟩ := exec_of_ok hok
  obtain ⟨hv, hc⟩ := okEvent_sound hok
  have h : hasMining ((run s0 unpaid).getD s0).world (mine 120 100) (fun m => hasPool ((run s0 unpaid).getD s0).world 100
      (fun p => decide (m.accountType = 2 ∧ m.rewardPool = 100 ∧ p.depositAuthority = 110 ∧
        10 ^ 16 ≤ entitlement m p.cumulative ((run s0 unpaid).getD s0).now))) = true := by decide +kernel
  obtain ⟨m, hm, h⟩ := hasMining_sound h
  obtain ⟨p, hp, h⟩ := hasPool_sound h
  simp only [decide_eq_true_eq] at h
  obtain ⟨h1, h2, h3, h4⟩ := h
  refine ⟨env, _, _, _, ret, mine 120 100, m, p, env_injective, hr, hv, hc, hx, hm, ?_, h1, h2, hp,
    by rw [h3]; unfold Signed; decide, h4⟩
  intro m' hm'
  obtain ⟨M, G, P, m0, p0, e1, -, -, -, -, -, -, -, -, -, -, -, e2, -⟩ := C34_close (reachable_wf hr) hv hc hx
  cases e1
  have e3 := hm'.2.symm.trans (congrArg Account.content e2)
  cases e3

/-- A mining with a stake of 7. -/
def staked : List Event :=
  [initPool 100, initMining 100 120, deposit 100 120 7 .flex 120, .tick DAY]

/-- C35 fails: a mining with stake is closed; the pool's total stake then exceeds the stake of all minings (none is left
anywhere). -/
theorem C35_false : ∃ (env : Env) (s : Chain) (accs : List AccountInfo) (w' : World) (ret : Option Nat)
    (m : Mining) (p : Pool), env.PdaInjective ∧ Reachable env s ∧ RealSigners accs ∧
      NotPoolAsMining env s.world accs .closeMining ∧ HonestArgs env s.world accs .closeMining ∧
      exec env s.now s.world accs .closeMining = .ok (w', ret) ∧
      MiningAt env s.world (mine 120 100) m ∧ earningOn m (midnight s.now) = 7 ∧
      PoolAt env w' 100 p ∧ totalOn p (midnight s.now) = 7 ∧ stakeAt env w' (midnight s.now) (mine 120 100) = 0 := by
  have hr := after_reachable (es := staked) (by decide +kernel)
  have hok : okEvent ((run s0 staked).getD s0) (close 100 120) = true := by decide +kernel
  obtain ⟨ret, hx⟩ := exec_of_ok hok
  obtain ⟨hv, hc⟩ := okEvent_sound hok
  have h : hasMining ((run s0 staked).getD s0).world (mine 120 100) (fun m => hasPool
      (((run s0 staked).getD s0).apply env (close 100 120)).world 100
      (fun p => decide (m.rewardPool = 100 ∧ earningOn m (midnight ((run s0 staked).getD s0).now) = 7 ∧
        totalOn p (midnight ((run s0 staked).getD s0).now) = 7))) = true := by decide +kernel
  obtain ⟨m, hm, h⟩ := hasMining_sound h
  obtain ⟨p, hp, h⟩ := hasPool_sound h
  simp only [decide_eq_true_eq] at h
  obtain ⟨h1, h2, h3⟩ := h
  refine ⟨env, _, _, _, ret, m, p, env_injective, hr, hv, hc, ?_, hx, hm, h2, hp, h3, by decide +kernel⟩
  intro a b m1 ha hb hm1
  cases ha; cases hb
  rw [MiningAt.unique hm1 hm]; exact h1

end Counterexamples

end Verif
