import Verif.Lemmas.Scale
import Verif.Lemmas.Life
/-!
Histories with `c` times the stake.
-/

namespace Verif

open Spec

variable {env : Env} {c : Nat}

theorem timesIx_accs {accs : List AccountInfo} {P M A D : AccountInfo} {i : Ix} (h : StakeAccs accs P M A D (timesIx c i)) :
    StakeAccs accs P M A D i := by
  cases i <;> exact h

theorem timesIx_owner (i : Ix) : (timesIx c i).ownerArg = i.ownerArg := by cases i <;> rfl

theorem timesIx_isStake (i : Ix) : (timesIx c i).isStake = i.isStake := by cases i <;> rfl

/-- A new pool has no stake. -/
theorem Step.blank {now : Nat} {w w' : World} {accs : List AccountInfo} {f d : Key} {r : Option Nat}
    (h : Step env now w w' accs (.initializePool f d) r) {k : Key} (hk : accs[0]?.map (·.key) = some k) {p : Pool}
    (hp : PoolAt env w' k p) : p.totalShare = 0 ∧ p.diffs = [] := by
  cases h with
  | stake _ op => exact op.elim
  | @initPool _ _ P T V Y A R K S rest bump accs_eq signedY signedA owned len fresh notPda vault pool' =>
    rw [accs_eq] at hk; cases hk
    have h1 := hp.2
    rw [pool'] at h1
    cases h1
    exact ⟨rfl, rfl⟩

section
variable {now : Nat} {v v' w w' : World} {accs : List AccountInfo} {i i' : Ix} {r r' : Option Nat}

/-- The stake operations of two `stake` steps. -/
theorem Spec.TimesWorld.stake (ht : TimesWorld env c v w) {P M A D : AccountInfo} {o o' : Key} {p p' q q' : Pool}
    {m m' n n' : Mining} {d d' e e' : Option Mining} (c1 : Checked env now v P M A o p m) (c2 : Checked env now w P M A o' q n)
    (d1 : ∀ x, d = some x → DelChecked env v P.key D.key x) (d2 : ∀ x, e = some x → DelChecked env w P.key D.key x)
    (f1 : StakeEffect env v v' P.key M.key D.key p p' m m' d d')
    (f2 : StakeEffect env w w' P.key M.key D.key q q' n n' e e') (o1 : StakeOp env.caps now p m d p' m' d' i)
    (o2 : StakeOp env.caps now q n e q' n' e' (timesIx c i)) : OpTimes c p' q' m' n' d d' e e' := by
  obtain ⟨q0, a1, a2⟩ := ht.pools _ _ f1.pool
  obtain rfl := PoolAt.unique a1 f2.pool
  obtain ⟨n0, b1, b2⟩ := ht.minings _ _ f1.mining c1.init.type
  obtain rfl := MiningAt.unique b1 f2.mining
  exact StakeOp.times c1.good.ok c2.good.ok c1.miningOk c2.miningOk (fun x hx => (d1 x hx).ok) (fun x hx => (d2 x hx).ok) a2 b2
    (f1.bothSome f2) o1 o2

/-- The two operations of a change of delegate. -/
theorem Spec.TimesWorld.redelegate (ht : TimesWorld env c v w) {P M A : AccountInfo} {o old new : Key} {p p' q q' : Pool}
    {m m' n n' : Mining} {od od' nd nd' oe oe' ne ne' : Option Mining} {a : Nat} (c1 : Checked env now v P M A o p m)
    (c2 : Checked env now w P M A o q n) (d1 : ∀ x, od = some x → MiningOk x) (d2 : ∀ x, oe = some x → MiningOk x)
    (f1 : RedelegateEffect env v v' P.key M.key old new p p' m m' od od' nd nd')
    (f2 : RedelegateEffect env w w' P.key M.key old new q q' n n' oe oe' ne ne')
    (o1 : p.changeDelegate now m nd od a = .ok (p', m', nd', od'))
    (o2 : q.changeDelegate now n ne oe (c * a) = .ok (q', n', ne', oe')) :
    OpTimes c p' q' m' n' nd nd' ne ne' ∧ DelTimes c od od' oe oe' := by
  obtain ⟨q0, a1, a2⟩ := ht.pools _ _ f1.pool
  obtain rfl := PoolAt.unique a1 f2.pool
  obtain ⟨n0, b1, b2⟩ := ht.minings _ _ f1.mining c1.init.type
  obtain rfl := MiningAt.unique b1 f2.mining
  exact redelegate_times c1.good.ok c2.good.ok c1.miningOk c2.miningOk a2 b2 d1 d2 (f1.new.bothSome f2.new)
    (f1.old.bothSome f2.old) o1 o2

/-- A pool in both worlds. -/
theorem Spec.TimesWorld.pool (hc : 0 < c) (ht : TimesWorld env c v w) (hv : Wf env now v) (hw : Wf env now w)
    (hii : i' = timesIx c i) (h1 : Step env now v v' accs i r) (h2 : Step env now w w' accs i' r') {k : Key}
    {p p' q q' : Pool} (hp : PoolAt env v k p) (hq : PoolAt env w k q) (hpq : TimesStakes c p q) (hp' : PoolAt env v' k p')
    (hq' : PoolAt env w' k q') : TimesStakes c p' q' := by
  obtain ⟨p2, a1, a2, -⟩ := h1.pool hp
  obtain rfl := PoolAt.unique hp' a1
  obtain ⟨q2, b1, b2, -⟩ := h2.pool hq
  obtain rfl := PoolAt.unique hq' b1
  have okp := (poolAt_good hv hp).ok
  have okq := (poolAt_good hw hq).ok
  by_cases hi : i.isStake = true
  · cases h1 with
    | @stake _ P M A D p0 p1 m m' d d' accs_eq op chk del quiet same sfo ok' sameDel eff =>
      cases h2 with
      | @stake _ P2 M2 A2 D2 q0 q1 n n' e e' accs_eq2 op2 chk2 del2 quiet2 same2 sfo2 ok2' sameDel2 eff2 =>
        subst hii
        obtain ⟨rfl, rfl, rfl, rfl⟩ := accs_eq.unique (timesIx_accs accs_eq2)
        by_cases hk : k = P.key
        · subst hk
          obtain rfl := PoolAt.unique hp' eff.pool'
          obtain rfl := PoolAt.unique hq' eff2.pool'
          exact (ht.stake chk chk2 del del2 eff eff2 op op2).pool
        · have e1 := eff.otherPool hp hk
          have e2 := eff2.otherPool hq hk
          obtain rfl := PoolAt.unique hp ((poolAt_congr e1).mp hp')
          obtain rfl := PoolAt.unique hq ((poolAt_congr e2).mp hq')
          exact hpq
      | _ => cases i <;> first | exact op.elim | cases hii
    | @redelegate a nd P M A O Old New rest p0 p1 m m' od od' dn dn' accs_eq signed op chk newDel oldOk oldAt ne quiet
        same sfo ok' sameNew sameOld neP eff =>
      cases h2 with
      | @redelegate a2 nd2 P2 M2 A2 O2 Old2 New2 rest2 q0 q1 n n' oe oe' en en' accs_eq2 signed2 op2 chk2 newDel2 oldOk2
          oldAt2 ne2 quiet2 same2 sfo2 ok2' sameNew2 sameOld2 neP2 eff2 =>
        cases hii
        rw [accs_eq] at accs_eq2; cases accs_eq2
        by_cases hk : k = P.key
        · subst hk
          obtain rfl := PoolAt.unique hp' eff.pool'
          obtain rfl := PoolAt.unique hq' eff2.pool'
          exact (ht.redelegate chk chk2 oldOk oldOk2 eff eff2 op op2).1.pool
        · have e1 := eff.otherPool hp hk
          have e2 := eff2.otherPool hq hk
          obtain rfl := PoolAt.unique hp ((poolAt_congr e1).mp hp')
          obtain rfl := PoolAt.unique hq ((poolAt_congr e2).mp hq')
          exact hpq
      | stake accs_eq2 op2 => subst hii; exact op2.elim
      | _ => cases hii
    | _ => cases hi
  · have hi' : ¬ i'.isStake = true := by rw [hii, timesIx_isStake]; exact hi
    have hbud : i'.isBudget = i.isBudget := by rw [hii]; cases i <;> rfl
    cases a2 with
    | same other =>
      cases b2 with
      | same => exact hpq
      | stake h0 => exact absurd h0 hi'
      | distribute acc => exact absurd acc (other (hbud.symm.trans rfl))
      | fill acc => exact absurd acc (other (hbud.symm.trans rfl))
    | stake h0 => exact absurd h0 hi
    | fill acc =>
      cases b2 with
      | same other => exact absurd acc (other hbud)
      | stake h0 => exact absurd h0 hi'
      | fill =>
        cases hii
        obtain ⟨j, t, rfl, ht⟩ := hpq.form
        exact ⟨rfl, ht⟩
      | distribute => cases hii
    | distribute acc _ am1 op1 =>
      cases b2 with
      | same other => exact absurd acc (other hbud)
      | stake h0 => exact absurd h0 hi'
      | fill => cases hii
      | distribute _ _ am2 op2 =>
        have : p.rewardsToDistribute now = q.rewardsToDistribute now := by
          obtain ⟨j, t, rfl, ht⟩ := hpq.form
          rfl
        rw [this, am2] at am1
        cases am1
        exact distribute_times hc okp okq hpq op1 op2

/-- An initialized mining in both worlds. -/
theorem Spec.TimesWorld.mining (hc : 0 < c) (ht : TimesWorld env c v w) (hii : i' = timesIx c i)
    (h1 : Step env now v v' accs i r) (h2 : Step env now w w' accs i' r') {k : Key} {m m' n n' : Mining}
    (hm : MiningAt env v k m) (hn : MiningAt env w k n) (hmn : TimesStake c m n)
    (hm' : MiningAt env v' k m') (hn' : MiningAt env w' k n') : TimesStake c m' n' := by
  have same : v' k = v k → w' k = w k → TimesStake c m' n' := by
    intro e1 e2
    rw [MiningAt.unique ((miningAt_congr e1).mp hm') hm, MiningAt.unique ((miningAt_congr e2).mp hn') hn]
    exact hmn
  have tok : ∀ j, (v j).owner = env.tokenProgram → k ≠ j := by
    rintro j hj rfl; exact env.program_ne_token (hm.1.symm.trans hj)
  have sys : ∀ j, (v j).owner = env.systemProgram → k ≠ j := by
    rintro j hj rfl; exact env.program_ne_system (hm.1.symm.trans hj)
  have tok' : ∀ j, (w j).owner = env.tokenProgram → k ≠ j := by
    rintro j hj rfl; exact env.program_ne_token (hn.1.symm.trans hj)
  have sys' : ∀ j, (w j).owner = env.systemProgram → k ≠ j := by
    rintro j hj rfl; exact env.program_ne_system (hn.1.symm.trans hj)
  cases h1 with
  | @stake _ P M A D p0 p1 m0 m1 d d' accs_eq op chk del quiet same0 sfo ok' sameDel eff =>
    cases h2 with
    | @stake _ P2 M2 A2 D2 q0 q1 n0 n1 e e' accs_eq2 op2 chk2 del2 quiet2 same2 sfo2 ok2' sameDel2 eff2 =>
      subst hii
      obtain ⟨rfl, rfl, rfl, rfl⟩ := accs_eq.unique (timesIx_accs accs_eq2)
      have hop := ht.stake chk chk2 del del2 eff eff2 op op2
      rcases eff.minings hm with ⟨rfl, rfl, a1⟩ | ⟨rfl, ne, rfl, y, rfl, a1⟩ | ⟨ne1, ne2, a1⟩
      · obtain rfl := MiningAt.unique hm' a1
        obtain rfl := MiningAt.unique hn eff2.mining
        obtain rfl := MiningAt.unique hn' eff2.mining'
        exact hop.mining
      · obtain rfl := MiningAt.unique hm' a1
        rcases eff2.minings hn with ⟨h0, -⟩ | ⟨-, -, rfl, y2, rfl, b1⟩ | ⟨-, h0, -⟩
        · exact absurd h0 ne
        · obtain rfl := MiningAt.unique hn' b1
          obtain ⟨x', y', z1, z2, -, -, z3⟩ := hop.delegate m n rfl rfl (del m rfl).ok (del2 n rfl).ok hmn
          cases z1; cases z2
          exact z3
        · exact absurd rfl h0
      · rcases eff2.minings hn with ⟨h0, -⟩ | ⟨h0, -⟩ | ⟨-, -, b1⟩
        · exact absurd h0 ne1
        · exact absurd h0 ne2
        · rw [MiningAt.unique hm' a1, MiningAt.unique hn' b1]
          exact hmn
    | _ => cases i <;> first | exact op.elim | cases hii
  | @redelegate a nd P M A O Old New rest p0 p1 m0 m1 od od' dn dn' accs_eq signed op chk newDel oldOk oldAt ne quiet
      same0 sfo ok' sameNew sameOld neP eff =>
    cases h2 with
    | stake accs_eq2 op2 => subst hii; exact op2.elim
    | @redelegate a2 nd2 P2 M2 A2 O2 Old2 New2 rest2 q0 q1 n0 n1 oe oe' en en' accs_eq2 signed2 op2 chk2 newDel2 oldOk2
        oldAt2 ne2 quiet2 same2 sfo2 ok2' sameNew2 sameOld2 neP2 eff2 =>
      cases hii
      rw [accs_eq] at accs_eq2; cases accs_eq2
      obtain ⟨hop, hold⟩ := ht.redelegate chk chk2 oldOk oldOk2 eff eff2 op op2
      by_cases hk : k = M.key
      · subst hk
        obtain rfl := MiningAt.unique hm eff.mining
        obtain rfl := MiningAt.unique hm' eff.mining'
        obtain rfl := MiningAt.unique hn eff2.mining
        obtain rfl := MiningAt.unique hn' eff2.mining'
        exact hop.mining
      · by_cases hk2 : k = Old.key
        · subst hk2
          rcases eff.old with ⟨h1, _⟩ | ⟨_, _, x, x', rfl, rfl, h3⟩
          · exact absurd h1 hk
          rcases eff2.old with ⟨h1, _⟩ | ⟨_, _, y, y', rfl, rfl, h4⟩
          · exact absurd h1 hk
          obtain ⟨rfl, b1⟩ := h3 _ hm
          obtain ⟨rfl, b2⟩ := h4 _ hn
          obtain rfl := MiningAt.unique hm' b1
          obtain rfl := MiningAt.unique hn' b2
          obtain ⟨_, _, z1, z2, -, -, z3⟩ := hold m n rfl rfl (oldOk m rfl) (oldOk2 n rfl) hmn
          cases z1; cases z2
          exact z3
        · by_cases hk3 : k = New.key
          · subst hk3
            rcases eff.new with ⟨h1, _⟩ | ⟨_, _, x, x', rfl, rfl, h3⟩
            · exact absurd h1 hk
            rcases eff2.new with ⟨h1, _⟩ | ⟨_, _, y, y', rfl, rfl, h4⟩
            · exact absurd h1 hk
            obtain ⟨rfl, b1⟩ := h3 _ hm
            obtain ⟨rfl, b2⟩ := h4 _ hn
            obtain rfl := MiningAt.unique hm' b1
            obtain rfl := MiningAt.unique hn' b2
            obtain ⟨_, _, z1, z2, -, -, z3⟩ := hop.delegate m n rfl rfl (newDel m rfl).ok (newDel2 n rfl).ok hmn
            cases z1; cases z2
            exact z3
          · exact same (eff.frame k (by rintro rfl; exact PoolAt.not_mining eff.pool hm) hk hk2 hk3)
              (eff2.frame k (by rintro rfl; exact PoolAt.not_mining eff2.pool hn) hk hk2 hk3)
    | _ => cases hii
  | @decrease o a A P M rest p m1 m1' accs_eq chk pool op mining mining' same1 ok' sfo frame shell =>
    cases h2 with
    | stake accs_eq2 op2 => subst hii; exact op2.elim
    | @decrease _ _ A2 P2 M2 rest2 p2 m2 m2' accs_eq2 chk2 pool2 op2 mining2 mining2' same2 ok2' sfo2 frame2 shell2 =>
      cases hii
      rw [accs_eq] at accs_eq2; cases accs_eq2
      by_cases hk : k = M.key
      · subst hk
        obtain rfl := MiningAt.unique hm mining
        obtain rfl := MiningAt.unique hm' mining'
        obtain rfl := MiningAt.unique hn mining2
        obtain rfl := MiningAt.unique hn' mining2'
        exact decrease_times hc hmn op op2
      · exact same (frame k hk) (frame2 k hk)
    | _ => cases hii
  | @claim P T V M O A U K rest p m1 m2 x accs_eq signedO signedA eff =>
    cases h2 with
    | stake accs_eq2 op2 => subst hii; exact op2.elim
    | @claim P2 T2 V2 M2 O2 A2 U2 K2 rest2 q n1 n2 x2 accs_eq2 signedO2 signedA2 eff2 =>
      rw [accs_eq] at accs_eq2; cases accs_eq2
      obtain ⟨t, htk, -⟩ := eff.userTok
      obtain ⟨t2, htk2, -⟩ := eff2.userTok
      by_cases hk : k = M.key
      · subst hk
        obtain rfl := MiningAt.unique hm eff.mining
        obtain rfl := MiningAt.unique hm' eff.mining'
        obtain rfl := MiningAt.unique hn eff2.mining
        obtain rfl := MiningAt.unique hn' eff2.mining'
        obtain ⟨u, j, rfl⟩ := (refresh_times eff.good.ok.history eff2.good.ok.history eff.miningOk eff2.miningOk hmn eff.refreshed
          eff2.refreshed).form
        rfl
      · exact same (eff.frame k hk (tok _ eff.vaultTok) (tok _ htk.1)) (eff2.frame k hk (tok' _ eff2.vaultTok) (tok' _ htk2.1))
    | _ => cases hii
  | distribute _ _ _ _ pool _ _ _ _ _ frame =>
    cases h2 with
    | stake accs_eq2 op2 => subst hii; exact op2.elim
    | distribute _ _ _ _ pool2 _ _ _ _ _ frame2 =>
      exact same (frame k (by rintro rfl; exact PoolAt.not_mining pool hm))
        (frame2 k (by rintro rfl; exact PoolAt.not_mining pool2 hn))
    | _ => cases hii
  | @fill r e P T V F S K rest q w1 accs_eq signed auth good pool vault nonzero future later endBound bound pool' w1_frame
      transfer frame neS neV shell =>
    cases h2 with
    | stake accs_eq2 op2 => subst hii; exact op2.elim
    | @fill _ _ P2 T2 V2 F2 S2 K2 rest2 q2 w2 accs_eq2 signed2 auth2 good2 pool2 vault2 nonzero2 future2 later2 endBound2
        bound2 pool2' w2_frame transfer2 frame2 neS2 neV2 shell2 =>
      obtain ⟨t, t', htk, -⟩ := transfer.srcTok
      obtain ⟨u, u', hu, -⟩ := transfer.dstTok
      obtain ⟨t2, t2', htk2, -⟩ := transfer2.srcTok
      obtain ⟨u2, u2', hu2, -⟩ := transfer2.dstTok
      exact same (frame k (by rintro rfl; exact PoolAt.not_mining pool hm)
          (tok _ (by rw [← w1_frame _ neS]; exact htk.1)) (tok _ (by rw [← w1_frame _ neV]; exact hu.1)))
        (frame2 k (by rintro rfl; exact PoolAt.not_mining pool2 hn) (tok' _ (by rw [← w2_frame _ neS2]; exact htk2.1))
          (tok' _ (by rw [← w2_frame _ neV2]; exact hu2.1)))
    | _ => cases hii
  | @close M O G A P rest p m1 m2 accs_eq signedO signedA good pool auth mining init miningOk owner refreshed sfo paid target
      closed credited frame ne neG =>
    cases h2 with
    | stake accs_eq2 op2 => subst hii; exact op2.elim
    | @close M2 O2 G2 A2 P2 rest2 p2 n1 n2 accs_eq2 signedO2 signedA2 good2 pool2 auth2 mining2 init2 miningOk2 owner2 refreshed2
        sfo2 paid2 target2 closed2 credited2 frame2 ne2 neG2 =>
      rw [accs_eq] at accs_eq2; cases accs_eq2
      by_cases hk : k = M.key
      · subst hk
        have := hm'.2; rw [closed] at this; cases this
      · exact same (frame k hk (sys _ target)) (frame2 k hk (sys' _ target2))
    | _ => cases hii
  | @initPool f d P T V Y A R K S rest bump accs_eq signedY signedA owned len fresh notPda vault pool' vaultBefore vault'
      payer payer' frame =>
    cases h2 with
    | stake accs_eq2 op2 => subst hii; exact op2.elim
    | @initPool _ _ P2 T2 V2 Y2 A2 R2 K2 S2 rest2 bump2 accs_eq2 signedY2 signedA2 owned2 len2 fresh2 notPda2 vault2 pool2'
        vaultBefore2 vault2' payer2 payer2' frame2 =>
      rw [accs_eq] at accs_eq2; cases accs_eq2
      by_cases hk : k = P.key
      · subst hk
        have := hm'.2; rw [pool'] at this; cases this
      · exact same (frame k hk (sys _ vaultBefore.2.2) (sys _ payer.2.1)) (frame2 k hk (sys' _ vaultBefore2.2.2) (sys' _ payer2.2.1))
    | _ => cases hii
  | initMining _ _ _ _ before _ payer _ frame =>
    cases h2 with
    | stake accs_eq2 op2 => subst hii; exact op2.elim
    | initMining _ _ _ _ before2 _ payer2 _ frame2 =>
      exact same (frame k (sys _ before.2.2) (sys _ payer.2.1)) (frame2 k (sys' _ before2.2.2) (sys' _ payer2.2.1))
    | _ => cases hii

theorem Spec.TimesWorld.poolOf (ht : TimesWorld env c v w) {k : Key} {q : Pool} (hq : PoolAt env w k q) :
    ∃ p, PoolAt env v k p ∧ TimesStakes c p q := by
  obtain ⟨p, hp⟩ := ht.poolsBack k q hq
  obtain ⟨q', h1, h2⟩ := ht.pools k p hp
  rw [PoolAt.unique hq h1]
  exact ⟨p, hp, h2⟩

theorem Spec.TimesWorld.miningOf (ht : TimesWorld env c v w) {k : Key} {n : Mining} (hn : MiningAt env w k n)
    (hty : n.accountType = 2) : ∃ m, MiningAt env v k m ∧ m.accountType = 2 ∧ TimesStake c m n := by
  obtain ⟨m, hm, h0⟩ := ht.miningsBack k n hn hty
  obtain ⟨n', h1, h2⟩ := ht.minings k m hm h0
  rw [MiningAt.unique hn h1]
  exact ⟨m, hm, h0, h2⟩

theorem Spec.TimesStake.type {m n : Mining} (h : TimesStake c m n) : n.accountType = m.accountType := by rw [h]

/-- One instruction. -/
theorem Spec.TimesWorld.step (hc : 0 < c) (ht : TimesWorld env c v w) (hv : Wf env now v) (hw : Wf env now w)
    (hii : i' = timesIx c i) (h1 : Step env now v v' accs i r) (h2 : Step env now w w' accs i' r') : TimesWorld env c v' w' := by
  have back : ∀ {j}, i' = j → timesIx c j = j → (∀ i0, timesIx c i0 = j → i0 = j) → i = j := by
    intro j h _ hj; exact hj i (hii.symm.trans h)
  constructor
  · intro k p' hp'
    rcases h1.newPool hp' with ⟨p, hp⟩ | ⟨f, d, P, T, V, Y, A, rest, bump, rfl, e2, rfl, -⟩
    · obtain ⟨q, hq, hpq⟩ := ht.pools k p hp
      obtain ⟨q', hq', -⟩ := h2.pool hq
      exact ⟨q', hq', ht.pool hc hv hw hii h1 h2 hp hq hpq hp' hq'⟩
    · cases hii
      obtain ⟨p, a1, a2, -⟩ := h1.founded h2 (first_eq e2)
      obtain ⟨e3, e4⟩ := h1.blank (first_eq e2) a1
      rw [PoolAt.unique hp' a1]
      refine ⟨p, a2, ?_, rfl⟩
      cases p
      simp only at e3 e4
      simp only [e3, e4, Nat.mul_zero]
      rfl
  · intro k q' hq'
    rcases h2.newPool hq' with ⟨q, hq⟩ | ⟨f, d, P, T, V, Y, A, rest, bump, e0, e2, rfl, -⟩
    · obtain ⟨p, hp, -⟩ := ht.poolOf hq
      obtain ⟨p', hp', -⟩ := h1.pool hp
      exact ⟨p', hp'⟩
    · obtain rfl := back e0 rfl (by intro i0 h; cases i0 <;> first | exact h | cases h)
      subst e0
      obtain ⟨p, a1, a2, -⟩ := h1.founded h2 (first_eq e2)
      exact ⟨p, a1⟩
  · intro k m' hm' hty
    rcases h1.miningBack hm' hty with ⟨m, hm, hs⟩ | ⟨o, P, M, Y, rest, bump, rfl, rfl, rfl, hf, rfl, -⟩
    · have h0 : m.accountType = 2 := hs.accountType.symm.trans hty
      obtain ⟨n, hn, hmn⟩ := ht.minings k m hm h0
      rcases h2.miningOn hn (hmn.type.trans h0) with ⟨n', hn', -⟩ | ⟨e0, e2, -⟩
      · exact ⟨n', hn', ht.mining hc hii h1 h2 hm hn hmn hm' hn'⟩
      · obtain rfl := back e0 rfl (by intro i0 h; cases i0 <;> first | exact h | cases h)
        exact absurd hm' (h1.closed e2 _)
    · cases hii
      exact ⟨_, h2.created hf, by simp [TimesStake, Mining.init, Mining.zero, timesTable]⟩
  · intro k n' hn' hty
    rcases h2.miningBack hn' hty with ⟨n, hn, hs⟩ | ⟨o, P, M, Y, rest, bump, e0, rfl, rfl, hf, rfl, -⟩
    · have h0 : n.accountType = 2 := hs.accountType.symm.trans hty
      obtain ⟨m, hm, h0', hmn⟩ := ht.miningOf hn h0
      rcases h1.miningOn hm h0' with ⟨m', hm', hs'⟩ | ⟨rfl, e2, -⟩
      · exact ⟨m', hm', hs'.accountType.trans h0'⟩
      · cases hii
        exact absurd hn' (h2.closed e2 _)
    · obtain rfl := back e0 rfl (by intro i0 h; cases i0 <;> first | exact h | cases h)
      exact ⟨_, h1.created hf, rfl⟩

end

theorem Spec.TimesWorld.idle {v v' w w' : World} {X : Key → Prop} (ht : TimesWorld env c v w) (h1 : Idle env X v v')
    (h2 : Idle env X w w') : TimesWorld env c v' w' := by
  constructor
  · intro k p hp
    obtain ⟨a, b⟩ := (h1.pool k p).mp hp
    obtain ⟨q, x, d⟩ := ht.pools k p a
    exact ⟨q, (h2.pool k q).mpr ⟨x, b⟩, d⟩
  · intro k q hq
    obtain ⟨a, b⟩ := (h2.pool k q).mp hq
    obtain ⟨p, x⟩ := ht.poolsBack k q a
    exact ⟨p, (h1.pool k p).mpr ⟨x, b⟩⟩
  · intro k m hm hty
    obtain ⟨a, b⟩ := (h1.mining k m).mp hm
    obtain ⟨n, x, d⟩ := ht.minings k m a hty
    exact ⟨n, (h2.mining k n).mpr ⟨x, b⟩, d⟩
  · intro k n hn hty
    obtain ⟨a, b⟩ := (h2.mining k n).mp hn
    obtain ⟨m, x, d⟩ := ht.miningsBack k n a hty
    exact ⟨m, (h1.mining k m).mpr ⟨x, b⟩, d⟩

/-- One event. -/
theorem Spec.TimesWorld.event (hpos : 0 < c) {s t : Chain} {e e' : Event} (h : TimesWorld env c s.world t.world)
    (hnow : s.now = t.now) (hs : Wf env s.now s.world) (ht : Wf env t.now t.world) (hv : e.Valid env s) (hv' : e'.Valid env t)
    (hc : CleanEvent env s e) (hc' : CleanEvent env t e') (hee : TimesEvent c e e')
    (hgo : goesThrough env s e = goesThrough env t e') :
    TimesWorld env c (s.apply env e).world (t.apply env e').world ∧ (s.apply env e).now = (t.apply env e').now := by
  cases e with
  | ix accs i =>
    cases hee
    simp only [goesThrough] at hgo
    cases hx : exec env s.now s.world accs i with
    | error er =>
      cases hy : exec env t.now t.world accs (timesIx c i) with
      | ok r => simp [succeeded, hx, hy] at hgo
      | error er' => rw [apply_ix_error hx, apply_ix_error hy]; exact ⟨h, hnow⟩
    | ok r =>
      cases hy : exec env t.now t.world accs (timesIx c i) with
      | error er' => simp [succeeded, hx, hy] at hgo
      | ok r' =>
        obtain ⟨w1, ret⟩ := r
        obtain ⟨w2, ret'⟩ := r'
        rw [apply_ix_ok hx, apply_ix_ok hy]
        refine ⟨h.step hpos (r' := ret') hs (by rw [hnow]; exact ht) rfl (step_of_exec hs hv hc hx) ?_, hnow⟩
        rw [hnow]
        exact step_of_exec ht hv' hc' hy
  | tick d =>
    cases hee
    exact ⟨h, by simp only [Chain.apply, hnow]⟩
  | gc k =>
    cases hee
    exact ⟨h.idle (idle_gc s k) (idle_gc t k), hnow⟩
  | ext w =>
    obtain ⟨w', rfl⟩ := hee
    exact ⟨h.idle (idle_ext hv) (idle_ext hv'), hnow⟩

/-- The whole of two histories. -/
theorem runs_times (hpos : 0 < c) {es es' : List Event} {s t s' t' : Chain} (h1 : RunsWith env (CleanEvent env) s es s')
    (h2 : RunsWith env (CleanEvent env) t es' t') (hal : Alike env (TimesEvent c) s t es es') (hnow : s.now = t.now)
    (hs : Wf env s.now s.world) (ht : Wf env t.now t.world) (h : TimesWorld env c s.world t.world) :
    TimesWorld env c s'.world t'.world ∧ s'.now = t'.now := by
  induction es generalizing s t es' with
  | nil =>
    cases es' with
    | nil => cases h1; cases h2; exact ⟨h, hnow⟩
    | cons => exact hal.elim
  | cons e es ih =>
    cases es' with
    | nil => exact hal.elim
    | cons e' es' =>
      cases h1 with | cons hv1 hc1 h1 =>
      cases h2 with | cons hv2 hc2 h2 =>
      obtain ⟨hee, hgo, hal⟩ := hal
      obtain ⟨hb, hn⟩ := h.event hpos hnow hs ht hv1 hv2 hc1 hc2 hee hgo
      exact ih h1 h2 hal hn (wf_apply hs hv1 hc1) (wf_apply ht hv2 hc2) hb

section
variable {m n : Mining} {p q : Pool}

theorem Spec.TimesStake.earning (h : TimesStake c m n) (d : Nat) : earningOn n d = c * earningOn m d := by
  obtain ⟨u, i, rfl⟩ := h.form
  simp only [earningOn, timesTable_dueBy, Nat.mul_sub, Nat.mul_add]

theorem Spec.TimesStakes.total (h : TimesStakes c p q) (d : Nat) : (totalOn q d).toNat = c * (totalOn p d).toNat := by
  obtain ⟨i, t, rfl, -⟩ := h.form
  have e : ∀ T D : Nat, ((T : Int) - D).toNat = T - D := by omega
  simp only [totalOn, timesTable_dueBy, e, Nat.mul_sub]

theorem Spec.TimesStakes.newDay (h : TimesStakes c p q) (now : Nat) : NewDay q now ↔ NewDay p now := by
  unfold NewDay
  have : ∀ l : SMap, (∀ e ∈ l, e.1 ≠ midnight now) ↔ midnight now ∉ l.map (·.1) := by
    intro l
    simp only [List.mem_map, not_exists, not_and]
  rw [this, this, h.2]

theorem Spec.TimesStakes.distributed (h : TimesStakes c p q) (accs : List AccountInfo) (now : Nat) (P : Key) (i : Ix) :
    distributedFrom accs now P q (timesIx c i) = distributedFrom accs now P p i := by
  have hn := h.newDay now
  obtain ⟨j, t, rfl, -⟩ := h.form
  cases i <;> first | rfl | (simp only [timesIx, distributedFrom, hn])

/-- The rounding of a share. -/
theorem share_times (hc : 0 < c) (D T E : Nat) :
    D / (c * T) * (c * E) ≤ D / T * E ∧ D / T * E ≤ D / (c * T) * (c * E) + c * E := by
  have e : D / (c * T) = D / T / c := by rw [Nat.mul_comm, Nat.div_div_eq_div_mul]
  rw [e]
  generalize D / T = x
  have h1 := Nat.div_mul_le_self x c
  have h2 := Nat.lt_div_mul_add (a := x) hc
  constructor
  · rw [← Nat.mul_assoc]
    exact Nat.mul_le_mul_right _ h1
  · rw [← Nat.mul_assoc, ← Nat.add_mul]
    exact Nat.mul_le_mul_right _ (by omega)

end

/-- What a mining earns by an event. -/
theorem earned_times (hc : 0 < c) {P k : Key} {s t : Chain} {e e' : Event} {m n : Mining} {p q : Pool} (hnow : s.now = t.now)
    (hm : MiningAt env s.world k m) (hn : MiningAt env t.world k n) (hmn : TimesStake c m n) (hp : PoolAt env s.world P p)
    (hq : PoolAt env t.world P q) (hpq : TimesStakes c p q) (hee : TimesEvent c e e')
    (hgo : goesThrough env s e = goesThrough env t e') :
    earnedBy env P k t e' ≤ earnedBy env P k s e ∧
      earnedBy env P k s e ≤ earnedBy env P k t e' + c * stakeIn env P k s e := by
  unfold earnedBy stakeIn
  rw [hm.2, hn.2]
  cases e with
  | ix accs i =>
    cases hee
    simp only [goesThrough] at hgo
    simp only [incomeBy, takesPart, distributedBy, hp.2, hq.2, ← hgo]
    cases succeeded env s accs i with
    | false => simp
    | true =>
      simp only [if_true, incomeFrom, ← hnow, hpq.distributed, hmn.earning, hpq.total]
      by_cases h0 : 0 < distributedFrom accs s.now P p i
      · rw [if_pos h0]
        exact share_times hc _ _ _
      · have : distributedFrom accs s.now P p i = 0 := by omega
        simp [this]
  | tick d => cases hee; simp [incomeBy]
  | gc k => cases hee; simp [incomeBy]
  | ext w => obtain ⟨w', rfl⟩ := hee; simp [incomeBy]

/-- The number of distributions never falls. -/
theorem length_le_runs {P : Key} {s s' : Chain} {es : List Event} (hr : RunsWith env (CleanEvent env) s es s')
    (hre : Reachable env s) {p p' : Pool} (hp : PoolAt env s.world P p) (hpl : 0 < (s.world P).lamports)
    (hp' : PoolAt env s'.world P p') : p.cumulative.length ≤ p'.cumulative.length := by
  obtain ⟨q, k1, -, k2⟩ := runs_pool (reachable_wf hre) hr hp hpl (fun _ q => p.cumulative <+: q.cumulative)
    (List.prefix_refl _) (by
      rintro s e q q' hw' hv hq i1 hev
      cases hev with
      | same => exact i1
      | ix ok change =>
        rcases (change.history (poolAt_good hw' hq).ok).1 with h1 | ⟨-, h1⟩
        · rw [h1]; exact i1
        · rw [h1]; exact i1.trans (List.prefix_append _ _))
  rw [PoolAt.unique hp' k1]
  exact k2.length_le

/-- What a mining earns in the whole of two histories. -/
theorem runs_earned_times (hpos : 0 < c) {P k : Key} {es es' : List Event} {s t s' t' : Chain}
    (h1 : RunsWith env (CarefulEvent env P k) s es s') (h2 : RunsWith env (CarefulEvent env P k) t es' t')
    (hal : Alike env (TimesEvent c) s t es es') (hnow : s.now = t.now) (hs : Reachable env s) (ht : Reachable env t)
    (h : TimesWorld env c s.world t.world) {m : Mining} (hm : Proper env s.world k m) (hpool : m.rewardPool = P)
    (hml : 0 < (s.world k).lamports) {p p' : Pool} (hp : PoolAt env s.world P p) (hpl : 0 < (s.world P).lamports)
    (hi : m.index ≤ p.index) (hp' : PoolAt env s'.world P p') (hroom : p'.cumulative.length < env.caps.index) :
    totalIn env (earnedBy env P k) t es' ≤ totalIn env (earnedBy env P k) s es ∧
      totalIn env (earnedBy env P k) s es ≤ totalIn env (earnedBy env P k) t es' + c * totalIn env (stakeIn env P k) s es ∧
      ∃ m', Proper env s'.world k m' := by
  induction es generalizing s t es' m p with
  | nil =>
    cases es' with
    | nil => cases h1; exact ⟨by simp [totalIn], by simp [totalIn], m, hm⟩
    | cons => exact hal.elim
  | cons e es ih =>
    cases es' with
    | nil => exact hal.elim
    | cons e' es' =>
      cases h1 with | cons hv1 hc1 h1 =>
      cases h2 with | cons hv2 hc2 h2 =>
      obtain ⟨hee, hgo, hal⟩ := hal
      have hs' := hs.step hv1 hc1.1
      have ht' := ht.step hv2 hc2.1
      obtain ⟨hb, hn⟩ := h.event hpos hnow (reachable_wf hs) (reachable_wf ht) hv1 hv2 hc1.1 hc2.1 hee hgo
      obtain ⟨p1, b1, b2, b3⟩ := apply_pool (reachable_wf hs) hv1 hc1.1 hp hpl
      have hlen := length_le_runs (h1.weaken fun _ _ h => h.1) hs' b1 b2 hp'
      obtain ⟨m1, g1, g2, g3, g4, -⟩ := event_life hs hv1 hc1 hm hpool hml hp hi b3 (Nat.lt_of_le_of_lt hlen hroom)
      obtain ⟨i1, i2, i3⟩ := ih h1 h2 hal hn hs' ht' hb g1 g2 g3 b1 b2 g4
      obtain ⟨n, hn1, hmn⟩ := h.minings k m hm.1 hm.2
      obtain ⟨q, hq1, hpq⟩ := h.pools P p hp
      obtain ⟨j1, j2⟩ := earned_times hpos hnow hm.1 hn1 hmn hp hq1 hpq hee hgo
      simp only [totalIn, Nat.mul_add]
      exact ⟨by omega, by omega, i3⟩

theorem times_genesis {s t : Chain} (hs : Genesis env s) (ht : Genesis env t) : TimesWorld env c s.world t.world := by
  have np : ∀ {s : Chain}, Genesis env s → ∀ k p, ¬ PoolAt env s.world k p := by
    intro s hg k p hp
    have := (hg.owned k hp.1).1
    rw [hp.2] at this; cases this
  have nm : ∀ {s : Chain}, Genesis env s → ∀ k p, ¬ MiningAt env s.world k p := by
    intro s hg k p hp
    have := (hg.owned k hp.1).1
    rw [hp.2] at this; cases this
  exact ⟨fun k p h => absurd h (np hs k p), fun k p h => absurd h (np ht k p), fun k p h => absurd h (nm hs k p),
    fun k p h => absurd h (nm ht k p)⟩

end Verif
