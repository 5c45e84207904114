import Verif.Lemmas.Steps
/-!
What a successful instruction does to each pool and each mining, whichever accounts it was given.
-/

namespace Verif

open Spec

variable {env : Env}

/-- Instructions that change stakes. -/
def Ix.isStake : Ix → Bool
  | .depositMining .. | .withdrawMining .. | .extendStake .. | .slash .. | .changeDelegate .. => true
  | _ => false

/-- Instructions that change the budget of the first account. -/
def Ix.isBudget : Ix → Bool
  | .fillVault .. | .distributeRewards => true
  | _ => false

/-- How an instruction changes the pool at `k`. -/
inductive PoolChange (env : Env) (now : Nat) (w w' : World) (accs : List AccountInfo) (k : Key) (p : Pool) :
    Ix → Pool → Prop
  | same {i : Ix} (other : i.isBudget = true → accs[0]?.map (·.key) ≠ some k) : PoolChange env now w w' accs k p i p
  | stake {i : Ix} {p' : Pool} (hi : i.isStake = true) (quiet : Quiet now p p') (signed : Signed accs p.depositAuthority) :
      PoolChange env now w w' accs k p i p'
  | distribute {p' : Pool} {r : Nat} (acc : accs[0]?.map (·.key) = some k)
      (signed : Signed accs p.distributeAuthority) (amount : p.rewardsToDistribute now = .ok r)
      (op : p.distribute env.caps now r = .ok p') (same : SamePool p p') (ok' : PoolOk now p') :
      PoolChange env now w w' accs k p .distributeRewards p'
  | fill {r e : Nat} (acc : accs[0]?.map (·.key) = some k) (signed : Signed accs p.fillAuthority) (nonzero : r ≠ 0)
      (future : bod now ≤ bod e) (later : p.distributionEndsAt ≤ bod e) (endBound : bod e < U64)
      (bound : p.tokensAvailable + r < U64) :
      PoolChange env now w w' accs k p (.fillVault r e)
        { p with distributionEndsAt := bod e, tokensAvailable := p.tokensAvailable + r }

theorem poolAt_good {now : Nat} {w : World} (hw : Wf env now w) {k : Key} {p : Pool} (hp : PoolAt env w k p) :
    GoodPool env now k (w k).len p := by
  rcases (hw k).content hp.1 with e | ⟨q, e, g⟩ | ⟨q, e, -⟩
  · rw [hp.2] at e; cases e
  · rw [hp.2] at e; cases e; exact g
  · rw [hp.2] at e; cases e

theorem miningAt_ok {now : Nat} {w : World} (hw : Wf env now w) {k : Key} {m : Mining} (hm : MiningAt env w k m) :
    MiningOk m ∧ (InitMining env k (w k).len m ∨ BlankMining m) := by
  rcases (hw k).content hm.1 with e | ⟨q, e, g⟩ | ⟨q, e, g1, g2⟩
  · rw [hm.2] at e; cases e
  · rw [hm.2] at e; cases e
  · rw [hm.2] at e; cases e; exact ⟨g1, g2⟩

theorem StakeAccs.signed {accs : List AccountInfo} {P M A D : AccountInfo} {i : Ix} (h : StakeAccs accs P M A D i) :
    A ∈ accs := by
  cases i
  case slash => obtain ⟨_, rest, rfl⟩ := h; simp
  all_goals (obtain ⟨rest, rfl⟩ := h; simp)

theorem StakeOp.isStake {caps : Caps} {now : Nat} {p p' : Pool} {m m' : Mining} {d d' : Option Mining} {i : Ix}
    (h : StakeOp caps now p m d p' m' d' i) : i.isStake = true := by
  cases i <;> first | rfl | exact h.elim

theorem StakeOp.notBudget {caps : Caps} {now : Nat} {p p' : Pool} {m m' : Mining} {d d' : Option Mining} {i : Ix}
    (h : StakeOp caps now p m d p' m' d' i) : i.isBudget = false := by
  cases i <;> first | rfl | exact h.elim

/-- Nothing but its owning program's instructions happens to a pool: it stays a pool with the same lamports. -/
theorem Step.pool {now : Nat} {w w' : World} {accs : List AccountInfo} {i : Ix} {ret : Option Nat}
    (h : Step env now w w' accs i ret) {k : Key} {p : Pool} (hp : PoolAt env w k p) :
    ∃ p', PoolAt env w' k p' ∧ PoolChange env now w w' accs k p i p' ∧ (w' k).lamports = (w k).lamports ∧
      (w' k).len = (w k).len := by
  have unchanged : (i.isBudget = true → accs[0]?.map (·.key) ≠ some k) → w' k = w k →
      ∃ p', PoolAt env w' k p' ∧ PoolChange env now w w' accs k p i p' ∧
      (w' k).lamports = (w k).lamports ∧ (w' k).len = (w k).len :=
    fun h e => ⟨p, (poolAt_congr e).mpr hp, .same h, by rw [e], by rw [e]⟩
  have tok : ∀ j, (w j).owner = env.tokenProgram → k ≠ j := by
    rintro j hj rfl; exact env.program_ne_token (hp.1.symm.trans hj)
  have sys : ∀ j, (w j).owner = env.systemProgram → k ≠ j := by
    rintro j hj rfl; exact env.program_ne_system (hp.1.symm.trans hj)
  cases h with
  | @stake _ P M A D q q' m m' d d' accs_eq op chk del quiet same sfo ok' sameDel eff shell =>
    by_cases hk : k = P.key
    · subst hk
      obtain rfl := PoolAt.unique hp eff.pool
      exact ⟨q', eff.pool', .stake op.isStake quiet ⟨A, accs_eq.signed, chk.auth.symm, chk.signed⟩, (shell _).2.1,
        (shell _).2.2.1⟩
    · refine unchanged (fun h => by rw [op.notBudget] at h; cases h) (eff.frame k hk ?_ ?_)
      · rintro rfl; exact PoolAt.not_mining hp eff.mining
      · rintro rfl
        rcases eff.delegate with ⟨h1, -⟩ | ⟨-, -, h1, -⟩
        · rw [h1] at hp; exact PoolAt.not_mining hp eff.mining
        · exact h1 p hp
  | @redelegate a nd P M A O Old New rest q q' m m' od od' dn dn' accs_eq signed op chk newDel oldOk oldAt ne quiet same sfo
      ok' sameNew sameOld neP eff shell =>
    by_cases hk : k = P.key
    · subst hk
      obtain rfl := PoolAt.unique hp eff.pool
      exact ⟨q', eff.pool', .stake rfl quiet ⟨A, by rw [accs_eq]; simp, chk.auth.symm, chk.signed⟩, (shell _).2.1,
        (shell _).2.2.1⟩
    · refine unchanged (by intro h; cases h) (eff.frame k hk ?_ ?_ ?_)
      · rintro rfl; exact PoolAt.not_mining hp eff.mining
      · rintro rfl
        rcases eff.old with ⟨h1, -⟩ | ⟨-, h1, -⟩
        · rw [h1] at hp; exact PoolAt.not_mining hp eff.mining
        · exact h1 p hp
      · rintro rfl
        rcases eff.new with ⟨h1, -⟩ | ⟨-, h1, -⟩
        · rw [h1] at hp; exact PoolAt.not_mining hp eff.mining
        · exact h1 p hp
  | decrease _ _ _ _ hm _ _ _ _ frame =>
    exact unchanged (by intro h; cases h) (frame k (by rintro rfl; exact PoolAt.not_mining hp hm))
  | claim _ _ _ eff =>
    obtain ⟨t, ht, -⟩ := eff.userTok
    exact unchanged (by intro h; cases h) (eff.frame k (by rintro rfl; exact PoolAt.not_mining hp eff.mining) (tok _ eff.vaultTok) (tok _ ht.1))
  | @distribute P B rest q q' r accs_eq signed auth good pool pool' amount op same ok' frame shell =>
    by_cases hk : k = P.key
    · subst hk
      obtain rfl := PoolAt.unique hp pool
      exact ⟨q', pool', .distribute (by rw [accs_eq]; rfl) ⟨B, by rw [accs_eq]; simp, auth.symm, signed⟩ amount op same ok',
        (shell _).2.1, (shell _).2.2.1⟩
    · exact unchanged (fun _ h => hk (by rw [accs_eq] at h; simpa using h.symm)) (frame k hk)
  | @fill r e P T V F S K rest q w1 accs_eq signed auth good pool vault nonzero future later endBound bound pool' w1_frame
      transfer frame neS neV shell =>
    by_cases hk : k = P.key
    · subst hk
      obtain rfl := PoolAt.unique hp pool
      have e1 : w' P.key = w1 P.key := transfer.frame _ (Ne.symm neS) (Ne.symm neV)
      refine ⟨_, pool', .fill (by rw [accs_eq]; rfl) ⟨F, by rw [accs_eq]; simp, auth.symm, signed⟩ nonzero future later
        endBound bound, ?_, ?_⟩
      · rw [e1]; exact (shell _).2.1
      · rw [e1]; exact (shell _).2.2.1
    · obtain ⟨t, t', ht, -⟩ := transfer.srcTok
      obtain ⟨u, u', hu, -⟩ := transfer.dstTok
      refine unchanged (fun _ h => hk (by rw [accs_eq] at h; simpa using h.symm)) (frame k hk (tok _ ?_) (tok _ ?_))
      · rw [← w1_frame _ neS]; exact ht.1
      · rw [← w1_frame _ neV]; exact hu.1
  | close _ _ _ _ _ _ hm _ _ _ _ _ _ target _ _ frame =>
    exact unchanged (by intro h; cases h) (frame k (by rintro rfl; exact PoolAt.not_mining hp hm) (sys _ target))
  | @initPool f d P T V Y A R K S rest bump accs_eq signedY signedA owned len fresh notPda vault pool' vaultBefore vault'
      payer payer' frame =>
    refine unchanged (by intro h; cases h) (frame k ?_ (sys _ vaultBefore.2.2) (sys _ payer.2.1))
    rintro rfl
    rcases fresh with h1 | ⟨m, h1, -⟩
    · rw [hp.2] at h1; cases h1
    · rw [hp.2] at h1; cases h1
  | initMining _ _ _ _ before _ payer _ frame =>
    exact unchanged (by intro h; cases h) (frame k (sys _ before.2.2) (sys _ payer.2.1))

/-- Pools come into being only by InitializePool. -/
theorem Step.newPool {now : Nat} {w w' : World} {accs : List AccountInfo} {i : Ix} {ret : Option Nat}
    (h : Step env now w w' accs i ret) {k : Key} {p' : Pool} (hp : PoolAt env w' k p') :
    (∃ p, PoolAt env w k p) ∨
    ∃ f d P T V Y A rest bump, i = .initializePool f d ∧ accs = P :: T :: V :: Y :: A :: rest ∧ k = P.key ∧
      p' = Pool.init bump A.key d f T.key ∧ (∀ q, ¬ PoolAt env w k q) ∧ A.isSigner = true := by
  have unchanged : w' k = w k → ∃ p, PoolAt env w k p := fun e => ⟨p', (poolAt_congr e).mp hp⟩
  have shelled : Shell env (w k) (w' k) → ∃ p, PoolAt env w k p := by
    rintro ⟨h1, -, -, h4⟩
    have ho := h1.symm.trans hp.1
    rcases h4 with h4 | ⟨-, ⟨p, p', h2, -⟩ | ⟨m', h2, -⟩⟩
    · exact ⟨p', ho, h4 ▸ hp.2⟩
    · exact ⟨p, ho, h2⟩
    · have := hp.2; rw [h2] at this; cases this
  cases h with
  | stake _ _ _ _ _ _ _ _ _ _ shell => exact Or.inl (shelled (shell k))
  | redelegate _ _ _ _ _ _ _ _ _ _ _ _ _ _ _ _ shell => exact Or.inl (shelled (shell k))
  | decrease _ _ _ _ _ _ _ _ _ _ shell => exact Or.inl (shelled (shell k))
  | distribute _ _ _ _ _ _ _ _ _ _ _ shell => exact Or.inl (shelled (shell k))
  | @claim P T V M O A U K rest p m m1 n accs_eq signedO signedA eff =>
    left
    by_cases h1 : k = M.key
    · subst h1; exact absurd eff.mining' (PoolAt.not_mining hp)
    · by_cases h2 : n = 0
      · exact unchanged (eff.zero h2 k h1)
      · obtain ⟨w1, h3, h4⟩ := eff.transfer (by omega)
        obtain ⟨t, t', -, ht, -⟩ := h4.srcTok
        obtain ⟨u, u', -, hu, -⟩ := h4.dstTok
        refine unchanged ((h4.frame k ?_ ?_).trans (h3 k h1))
        · rintro rfl; exact env.program_ne_token (hp.1.symm.trans ht.1)
        · rintro rfl; exact env.program_ne_token (hp.1.symm.trans hu.1)
  | @fill r e P T V F S K rest q w1 accs_eq signed auth good pool vault nonzero future later endBound bound pool' w1_frame
      transfer frame neS neV shell =>
    left
    by_cases hk : k = P.key
    · subst hk; exact ⟨_, pool⟩
    · obtain ⟨t, t', -, ht, -⟩ := transfer.srcTok
      obtain ⟨u, u', -, hu, -⟩ := transfer.dstTok
      refine unchanged (frame k hk ?_ ?_)
      · rintro rfl; exact env.program_ne_token (hp.1.symm.trans ht.1)
      · rintro rfl; exact env.program_ne_token (hp.1.symm.trans hu.1)
  | @close M O G A P rest p m m1 accs_eq signedO signedA good pool auth mining init miningOk owner refreshed sfo paid target
      closed credited frame ne neG =>
    left
    by_cases h1 : k = M.key
    · subst h1; have := hp.2; rw [closed] at this; cases this
    · by_cases h2 : k = G.key
      · subst h2
        have := hp.1; rw [credited] at this
        exact absurd (this.symm.trans target) env.program_ne_system
      · exact unchanged (frame k h1 h2)
  | @initPool f d P T V Y A R K S rest bump accs_eq signedY signedA owned len fresh notPda vault pool' vaultBefore vault'
      payer payer' frame =>
    by_cases h1 : k = P.key
    · right
      subst h1
      have e1 := hp.2
      rw [pool'] at e1
      cases e1
      refine ⟨f, d, P, T, V, Y, A, _, bump, rfl, accs_eq, rfl, rfl, ?_, signedA⟩
      intro q hq
      rcases fresh with h1 | ⟨m, h1, -⟩
      · rw [hq.2] at h1; cases h1
      · rw [hq.2] at h1; cases h1
    · left
      by_cases h2 : k = V.key
      · subst h2
        have := hp.1; rw [vault'] at this
        exact absurd this.symm env.program_ne_token
      · by_cases h3 : k = Y.key
        · subst h3
          have := hp.1; rw [payer'] at this
          exact absurd (this.symm.trans payer.2.1) env.program_ne_system
        · exact unchanged (frame k h1 h2 h3)
  | @initMining o P M Y S rest bump accs_eq signedY owned addr before mining' payer payer' frame ne neP =>
    left
    by_cases h1 : k = M.key
    · subst h1; have := hp.2; rw [mining'] at this; cases this
    · by_cases h2 : k = Y.key
      · subst h2
        have := hp.1; rw [payer'] at this
        exact absurd (this.symm.trans payer.2.1) env.program_ne_system
      · exact unchanged (frame k h1 h2)

/-- A mining stays a mining with the same identity and lamports unless it is closed. -/
theorem Step.mining {now : Nat} {w w' : World} {accs : List AccountInfo} {i : Ix} {ret : Option Nat}
    (h : Step env now w w' accs i ret) {k : Key} {m : Mining} (hm : MiningAt env w k m) :
    (∃ m', MiningAt env w' k m' ∧ SameMining m m' ∧ (w' k).lamports = (w k).lamports ∧ (w' k).len = (w k).len) ∨
    (i = .closeMining ∧ accs[0]?.map (·.key) = some k ∧ w' k = { w k with lamports := 0, content := .zero }) ∨
    (∃ f d, i = .initializePool f d ∧ BlankMining m) := by
  have unchanged : w' k = w k → (∃ m', MiningAt env w' k m' ∧ SameMining m m' ∧ (w' k).lamports = (w k).lamports ∧
      (w' k).len = (w k).len) :=
    fun e => ⟨m, (miningAt_congr e).mpr hm, .refl m, by rw [e], by rw [e]⟩
  have tok : ∀ j, (w j).owner = env.tokenProgram → k ≠ j := by
    rintro j hj rfl; exact env.program_ne_token (hm.1.symm.trans hj)
  have sys : ∀ j, (w j).owner = env.systemProgram → k ≠ j := by
    rintro j hj rfl; exact env.program_ne_system (hm.1.symm.trans hj)
  cases h with
  | @stake _ P M A D q q' m1 m1' d d' accs_eq op chk del quiet same sfo ok' sameDel eff shell =>
    left
    rcases eff.minings hm with ⟨rfl, rfl, h1⟩ | ⟨h1, h0, rfl, y', rfl, h2⟩ | ⟨_, _, h1⟩
    · exact ⟨_, h1, same, (shell _).2.1, (shell _).2.2.1⟩
    · exact ⟨_, h2, sameDel.1, (shell _).2.1, (shell _).2.2.1⟩
    · exact ⟨_, h1, .refl _, (shell _).2.1, (shell _).2.2.1⟩
  | @redelegate a nd P M A O Old New rest q q' m1 m1' od od' dn dn' accs_eq signed op chk newDel oldOk oldAt ne quiet same sfo
      ok' sameNew sameOld neP eff shell =>
    left
    by_cases hk : k = M.key
    · subst hk
      obtain rfl := MiningAt.unique hm eff.mining
      exact ⟨_, eff.mining', same, (shell _).2.1, (shell _).2.2.1⟩
    · by_cases hk2 : k = Old.key
      · subst hk2
        rcases eff.old with ⟨h1, _⟩ | ⟨_, _, x, x', rfl, rfl, h3⟩
        · exact absurd h1 hk
        · obtain ⟨rfl, h4⟩ := h3 m hm
          exact ⟨_, h4, sameOld.1, (shell _).2.1, (shell _).2.2.1⟩
      · by_cases hk3 : k = New.key
        · subst hk3
          rcases eff.new with ⟨h1, _⟩ | ⟨_, _, x, x', rfl, rfl, h3⟩
          · exact absurd h1 hk
          · obtain ⟨rfl, h4⟩ := h3 m hm
            exact ⟨_, h4, sameNew.1, (shell _).2.1, (shell _).2.2.1⟩
        · exact unchanged (eff.frame k (by rintro rfl; exact PoolAt.not_mining eff.pool hm) hk hk2 hk3)
  | @decrease o n A P M rest p m1 m1' accs_eq chk pool op mining mining' same ok' sfo frame shell =>
    left
    by_cases hk : k = M.key
    · subst hk
      obtain rfl := MiningAt.unique hm mining
      exact ⟨_, mining', same, (shell _).2.1, (shell _).2.2.1⟩
    · exact unchanged (frame k hk)
  | @claim P T V M O A U K rest p m1 m2 n accs_eq signedO signedA eff =>
    left
    obtain ⟨t, ht, -⟩ := eff.userTok
    by_cases hk : k = M.key
    · subst hk
      obtain rfl := MiningAt.unique hm eff.mining
      obtain ⟨s, -⟩ := refresh_same eff.good.ok.history eff.miningOk eff.refreshed
      exact ⟨_, eff.mining', ⟨s.1, s.2, s.3, s.4, s.5⟩, eff.lamports, eff.accOwner.2⟩
    · exact unchanged (eff.frame k hk (tok _ eff.vaultTok) (tok _ ht.1))
  | distribute _ _ _ _ pool _ _ _ _ _ frame =>
    exact Or.inl (unchanged (frame k (by rintro rfl; exact PoolAt.not_mining pool hm)))
  | @fill r e P T V F S K rest q w1 accs_eq signed auth good pool vault nonzero future later endBound bound pool' w1_frame
      transfer frame neS neV shell =>
    obtain ⟨t, t', ht, -⟩ := transfer.srcTok
    obtain ⟨u, u', hu, -⟩ := transfer.dstTok
    refine Or.inl (unchanged (frame k (by rintro rfl; exact PoolAt.not_mining pool hm) (tok _ ?_) (tok _ ?_)))
    · rw [← w1_frame _ neS]; exact ht.1
    · rw [← w1_frame _ neV]; exact hu.1
  | @close M O G A P rest p m1 m2 accs_eq signedO signedA good pool auth mining init miningOk owner refreshed sfo paid target
      closed credited frame ne neG =>
    by_cases hk : k = M.key
    · right; left; subst hk; exact ⟨rfl, by rw [accs_eq]; rfl, closed⟩
    · exact Or.inl (unchanged (frame k hk (sys _ target)))
  | @initPool f d P T V Y A R K S rest bump accs_eq signedY signedA owned len fresh notPda vault pool' vaultBefore vault'
      payer payer' frame =>
    by_cases hk : k = P.key
    · right; right
      refine ⟨f, d, rfl, ?_⟩
      subst hk
      rcases fresh with h1 | ⟨m', h1, h2⟩
      · rw [hm.2] at h1; cases h1
      · rw [hm.2] at h1; cases h1; exact h2
    · exact Or.inl (unchanged (frame k hk (sys _ vaultBefore.2.2) (sys _ payer.2.1)))
  | initMining _ _ _ _ before _ payer _ frame =>
    exact Or.inl (unchanged (frame k (sys _ before.2.2) (sys _ payer.2.1)))

/-- Minings come into being only by InitializeMining, apart from uninitialized data. -/
theorem Step.newMining {now : Nat} {w w' : World} {accs : List AccountInfo} {i : Ix} {ret : Option Nat}
    (h : Step env now w w' accs i ret) {k : Key} {m' : Mining} (hm : MiningAt env w' k m') :
    (∃ m, MiningAt env w k m) ∨ ((w k).content = .zero ∧ BlankMining m') ∨
    ∃ o P M Y rest bump, i = .initializeMining o ∧ accs = P :: M :: Y :: rest ∧ k = M.key ∧
      env.findMining o P.key = some (k, bump) ∧ m' = Mining.init P.key o bump ∧
      (w k).lamports = 0 ∧ (w k).len = 0 ∧ (w k).owner = env.systemProgram := by
  have unchanged : w' k = w k → ∃ p, MiningAt env w k p := fun e => ⟨m', (miningAt_congr e).mp hm⟩
  have shelled : Shell env (w k) (w' k) → (∃ m, MiningAt env w k m) ∨ ((w k).content = .zero ∧ BlankMining m') := by
    rintro ⟨h1, -, -, h4⟩
    have ho := h1.symm.trans hm.1
    rcases h4 with h4 | ⟨-, ⟨p, p', -, h2⟩ | ⟨x, h2, ⟨y, h3⟩ | h3⟩⟩
    · exact Or.inl ⟨m', ho, h4 ▸ hm.2⟩
    · have := hm.2; rw [h2] at this; cases this
    · exact Or.inl ⟨y, ho, h3⟩
    · have := hm.2; rw [h2] at this; cases this; exact Or.inr h3
  have shelled' : Shell env (w k) (w' k) → (∃ m, MiningAt env w k m) ∨ ((w k).content = .zero ∧ BlankMining m') ∨
    ∃ o P M Y rest bump, i = .initializeMining o ∧ accs = P :: M :: Y :: rest ∧ k = M.key ∧
      env.findMining o P.key = some (k, bump) ∧ m' = Mining.init P.key o bump ∧
      (w k).lamports = 0 ∧ (w k).len = 0 ∧ (w k).owner = env.systemProgram := by
    intro hh
    rcases shelled hh with h1 | h1
    · exact Or.inl h1
    · exact Or.inr (Or.inl h1)
  cases h with
  | stake _ _ _ _ _ _ _ _ _ _ shell => exact shelled' (shell k)
  | redelegate _ _ _ _ _ _ _ _ _ _ _ _ _ _ _ _ shell => exact shelled' (shell k)
  | decrease _ _ _ _ _ _ _ _ _ _ shell => exact shelled' (shell k)
  | distribute _ _ _ _ _ _ _ _ _ _ _ shell => exact shelled' (shell k)
  | @claim P T V M O A U K rest p m m1 n accs_eq signedO signedA eff =>
    left
    by_cases h1 : k = M.key
    · subst h1; exact ⟨_, eff.mining⟩
    · by_cases h2 : n = 0
      · exact unchanged (eff.zero h2 k h1)
      · obtain ⟨w1, h3, h4⟩ := eff.transfer (by omega)
        obtain ⟨t, t', -, ht, -⟩ := h4.srcTok
        obtain ⟨u, u', -, hu, -⟩ := h4.dstTok
        refine unchanged ((h4.frame k ?_ ?_).trans (h3 k h1))
        · rintro rfl; exact env.program_ne_token (hm.1.symm.trans ht.1)
        · rintro rfl; exact env.program_ne_token (hm.1.symm.trans hu.1)
  | @fill r e P T V F S K rest q w1 accs_eq signed auth good pool vault nonzero future later endBound bound pool' w1_frame
      transfer frame neS neV shell =>
    left
    by_cases hk : k = P.key
    · subst hk; exact absurd hm (PoolAt.not_mining pool')
    · obtain ⟨t, t', -, ht, -⟩ := transfer.srcTok
      obtain ⟨u, u', -, hu, -⟩ := transfer.dstTok
      refine unchanged (frame k hk ?_ ?_)
      · rintro rfl; exact env.program_ne_token (hm.1.symm.trans ht.1)
      · rintro rfl; exact env.program_ne_token (hm.1.symm.trans hu.1)
  | @close M O G A P rest p m m1 accs_eq signedO signedA good pool auth mining init miningOk owner refreshed sfo paid target
      closed credited frame ne neG =>
    left
    by_cases h1 : k = M.key
    · subst h1; have := hm.2; rw [closed] at this; cases this
    · by_cases h2 : k = G.key
      · subst h2
        have := hm.1; rw [credited] at this
        exact absurd (this.symm.trans target) env.program_ne_system
      · exact unchanged (frame k h1 h2)
  | @initPool f d P T V Y A R K S rest bump accs_eq signedY signedA owned len fresh notPda vault pool' vaultBefore vault'
      payer payer' frame =>
    left
    by_cases h1 : k = P.key
    · subst h1
      have e1 := hm.2
      rw [pool'] at e1
      cases e1
    · by_cases h2 : k = V.key
      · subst h2
        have := hm.1; rw [vault'] at this
        exact absurd this.symm env.program_ne_token
      · by_cases h3 : k = Y.key
        · subst h3
          have := hm.1; rw [payer'] at this
          exact absurd (this.symm.trans payer.2.1) env.program_ne_system
        · exact unchanged (frame k h1 h2 h3)
  | @initMining o P M Y S rest bump accs_eq signedY owned addr before mining' payer payer' frame ne neP =>
    by_cases h1 : k = M.key
    · right; right
      subst h1
      have e1 := hm.2
      rw [mining'] at e1
      cases e1
      exact ⟨o, P, M, Y, _, bump, rfl, accs_eq, rfl, addr, rfl, before⟩
    · left
      by_cases h2 : k = Y.key
      · subst h2
        have := hm.1; rw [payer'] at this
        exact absurd (this.symm.trans payer.2.1) env.program_ne_system
      · exact unchanged (frame k h1 h2)

end Verif
