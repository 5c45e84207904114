import Verif.Lemmas.Twin
import Verif.Lemmas.Change
/-!
One instruction in two worlds that differ in the rewards.
-/

namespace Verif

open Spec

variable {env : Env}

/-- The same pools and initialized minings with the same stakes. -/
structure Tied (env : Env) (v w : World) : Prop where
  pools : ∀ k p, PoolAt env v k p → ∃ q, PoolAt env w k q ∧ SameStakes p q
  poolsBack : ∀ k q, PoolAt env w k q → ∃ p, PoolAt env v k p
  minings : ∀ k m, MiningAt env v k m → m.accountType = 2 → ∃ n, MiningAt env w k n ∧ SameStake m n
  miningsBack : ∀ k n, MiningAt env w k n → n.accountType = 2 → ∃ m, MiningAt env v k m ∧ m.accountType = 2

/-- The same instruction, or FillVault with other arguments. -/
def IxPair (i i' : Ix) : Prop := i = i' ∨ ∃ r t r' t', i = .fillVault r t ∧ i' = .fillVault r' t'

theorem StakeAccs.unique {accs : List AccountInfo} {P M A D P' M' A' D' : AccountInfo} {i : Ix}
    (h : StakeAccs accs P M A D i) (h' : StakeAccs accs P' M' A' D' i) : P = P' ∧ M = M' ∧ A = A' ∧ D = D' := by
  cases i
  case slash =>
    obtain ⟨rfl, rest, rfl⟩ := h
    obtain ⟨rfl, rest', e⟩ := h'
    cases e
    exact ⟨rfl, rfl, rfl, rfl⟩
  all_goals
    obtain ⟨rest, rfl⟩ := h
    obtain ⟨rest', e⟩ := h'
    cases e
    exact ⟨rfl, rfl, rfl, rfl⟩

theorem StakeEffect.otherPool {w w' : World} {pk mk dk : Key} {p p' : Pool} {m m' : Mining} {d d' : Option Mining}
    (eff : StakeEffect env w w' pk mk dk p p' m m' d d') {k : Key} {q : Pool} (hq : PoolAt env w k q) (hk : k ≠ pk) :
    w' k = w k := by
  refine eff.frame k hk ?_ ?_
  · rintro rfl; exact PoolAt.not_mining hq eff.mining
  · rintro rfl
    rcases eff.delegate with ⟨h1, -⟩ | ⟨-, -, h1, -⟩
    · rw [h1] at hq; exact PoolAt.not_mining hq eff.mining
    · exact h1 q hq

theorem RedelegateEffect.otherPool {w w' : World} {pk mk ok nk : Key} {p p' : Pool} {m m' : Mining}
    {od od' nd nd' : Option Mining} (eff : RedelegateEffect env w w' pk mk ok nk p p' m m' od od' nd nd') {k : Key}
    {q : Pool} (hq : PoolAt env w k q) (hk : k ≠ pk) : w' k = w k := by
  refine eff.frame k hk ?_ ?_ ?_
  · rintro rfl; exact PoolAt.not_mining hq eff.mining
  · rintro rfl
    rcases eff.old with ⟨h1, -⟩ | ⟨-, h1, -⟩
    · rw [h1] at hq; exact PoolAt.not_mining hq eff.mining
    · exact h1 q hq
  · rintro rfl
    rcases eff.new with ⟨h1, -⟩ | ⟨-, h1, -⟩
    · rw [h1] at hq; exact PoolAt.not_mining hq eff.mining
    · exact h1 q hq

theorem StakeEffect.bothSome {v v' w w' : World} {pk mk dk : Key} {p p' q q' : Pool} {m m' n n' : Mining}
    {d d' e e' : Option Mining} (h : StakeEffect env v v' pk mk dk p p' m m' d d')
    (h' : StakeEffect env w w' pk mk dk q q' n n' e e') : BothSome d e := by
  unfold BothSome
  rcases h.delegate with ⟨h1, rfl, -⟩ | ⟨h1, -, -, x, x', rfl, -⟩ <;>
  rcases h'.delegate with ⟨h2, rfl, -⟩ | ⟨h2, -, -, y, y', rfl, -⟩ <;> first | rfl | contradiction

theorem OptMoved.bothSome {v v' w w' : World} {mk dk : Key} {d d' e e' : Option Mining}
    (h : OptMoved env v v' mk dk d d') (h' : OptMoved env w w' mk dk e e') : BothSome d e := by
  unfold BothSome
  rcases h with ⟨h1, rfl, -⟩ | ⟨h1, -, x, x', rfl, -⟩ <;>
  rcases h' with ⟨h2, rfl, -⟩ | ⟨h2, -, y, y', rfl, -⟩ <;> first | rfl | contradiction

section
variable {now : Nat} {v v' w w' : World} {accs : List AccountInfo} {i i' : Ix} {r r' : Option Nat}

/-- The stake operations of two `stake` steps. -/
theorem Tied.stake (ht : Tied env v w) {P M A D : AccountInfo} {o : Key} {p p' q q' : Pool} {m m' n n' : Mining}
    {d d' e e' : Option Mining} (c1 : Checked env now v P M A o p m) (c2 : Checked env now w P M A o q n)
    (d1 : ∀ x, d = some x → DelChecked env v P.key D.key x) (d2 : ∀ x, e = some x → DelChecked env w P.key D.key x)
    (f1 : StakeEffect env v v' P.key M.key D.key p p' m m' d d')
    (f2 : StakeEffect env w w' P.key M.key D.key q q' n n' e e') (o1 : StakeOp env.caps now p m d p' m' d' i)
    (o2 : StakeOp env.caps now q n e q' n' e' i) : OpPair p p' q q' m m' n n' d d' e e' := by
  obtain ⟨q0, a1, a2⟩ := ht.pools _ _ f1.pool
  obtain rfl := PoolAt.unique a1 f2.pool
  obtain ⟨n0, b1, b2⟩ := ht.minings _ _ f1.mining c1.init.type
  obtain rfl := MiningAt.unique b1 f2.mining
  exact StakeOp.pair c1.good.ok c2.good.ok c1.miningOk (fun x hx => (d1 x hx).ok) (fun x hx => (d2 x hx).ok) a2 b2
    (f1.bothSome f2) o1 o2

/-- The two operations of a change of delegate. -/
theorem Tied.redelegate (ht : Tied env v w) {P M A : AccountInfo} {o old new : Key} {p p' q q' : Pool} {m m' n n' : Mining}
    {od od' nd nd' oe oe' ne ne' : Option Mining} {a : Nat} (c1 : Checked env now v P M A o p m)
    (c2 : Checked env now w P M A o q n) (d1 : ∀ x, od = some x → MiningOk x) (d2 : ∀ x, oe = some x → MiningOk x)
    (f1 : RedelegateEffect env v v' P.key M.key old new p p' m m' od od' nd nd')
    (f2 : RedelegateEffect env w w' P.key M.key old new q q' n n' oe oe' ne ne')
    (o1 : p.changeDelegate now m nd od a = .ok (p', m', nd', od'))
    (o2 : q.changeDelegate now n ne oe a = .ok (q', n', ne', oe')) :
    OpPair p p' q q' m m' n n' nd nd' ne ne' ∧ DelPair p.cumulative q.cumulative od od' oe oe' := by
  obtain ⟨q0, a1, a2⟩ := ht.pools _ _ f1.pool
  obtain rfl := PoolAt.unique a1 f2.pool
  obtain ⟨n0, b1, b2⟩ := ht.minings _ _ f1.mining c1.init.type
  obtain rfl := MiningAt.unique b1 f2.mining
  exact redelegate_pair c1.good.ok c2.good.ok c1.miningOk a2 b2 d1 d2 (f1.new.bothSome f2.new) (f1.old.bothSome f2.old) o1 o2

/-- A pool in both worlds. -/
theorem Tied.pool (ht : Tied env v w) (hv : Wf env now v) (hw : Wf env now w) (hii : IxPair i i')
    (h1 : Step env now v v' accs i r) (h2 : Step env now w w' accs i' r') {k : Key} {p p' q q' : Pool}
    (hp : PoolAt env v k p) (hq : PoolAt env w k q) (hpq : SameStakes p q) (hp' : PoolAt env v' k p')
    (hq' : PoolAt env w' k q') : SameStakes p' q' := by
  obtain ⟨p2, a1, a2, -⟩ := h1.pool hp
  obtain rfl := PoolAt.unique hp' a1
  obtain ⟨q2, b1, b2, -⟩ := h2.pool hq
  obtain rfl := PoolAt.unique hq' b1
  have okp := (poolAt_good hv hp).ok
  have okq := (poolAt_good hw hq).ok
  obtain ⟨t, x, j, c, rfl⟩ : ∃ t x i c,
      q = { p with tokensAvailable := t, distributionEndsAt := x, index := i, cumulative := c } := ⟨_, _, _, _, hpq⟩
  rcases hii with rfl | ⟨f, t, f', t', rfl, rfl⟩
  · by_cases hi : i.isStake = true
    · cases h1 with
      | @stake _ P M A D p0 p1 m m' d d' accs_eq op chk del quiet same sfo ok' sameDel eff =>
        cases h2 with
        | @stake _ P2 M2 A2 D2 q0 q1 n n' e e' accs_eq2 op2 chk2 del2 quiet2 same2 sfo2 ok2' sameDel2 eff2 =>
          obtain ⟨rfl, rfl, rfl, rfl⟩ := accs_eq.unique accs_eq2
          by_cases hk : k = P.key
          · subst hk
            obtain rfl := PoolAt.unique hp' eff.pool'
            obtain rfl := PoolAt.unique hq' eff2.pool'
            exact (ht.stake chk chk2 del del2 eff eff2 op op2).pool
          · have e1 := eff.otherPool hp hk
            have e2 := eff2.otherPool hq hk
            obtain rfl := PoolAt.unique hp ((poolAt_congr e1).mp hp')
            obtain rfl := PoolAt.unique hq ((poolAt_congr e2).mp hq')
            exact hpq
        | redelegate => exact op.elim
        | _ => cases hi
      | @redelegate a nd P M A O Old New rest p0 p1 m m' od od' dn dn' accs_eq signed op chk newDel oldOk oldAt ne quiet
          same sfo ok' sameNew sameOld neP eff =>
        cases h2 with
        | @redelegate a2 nd2 P2 M2 A2 O2 Old2 New2 rest2 q0 q1 n n' oe oe' en en' accs_eq2 signed2 op2 chk2 newDel2 oldOk2
            oldAt2 ne2 quiet2 same2 sfo2 ok2' sameNew2 sameOld2 neP2 eff2 =>
          rw [accs_eq] at accs_eq2; cases accs_eq2
          by_cases hk : k = P.key
          · subst hk
            obtain rfl := PoolAt.unique hp' eff.pool'
            obtain rfl := PoolAt.unique hq' eff2.pool'
            exact (ht.redelegate chk chk2 oldOk oldOk2 eff eff2 op op2).1.pool
          · have e1 := eff.otherPool hp hk
            have e2 := eff2.otherPool hq hk
            obtain rfl := PoolAt.unique hp ((poolAt_congr e1).mp hp')
            obtain rfl := PoolAt.unique hq ((poolAt_congr e2).mp hq')
            exact hpq
        | stake accs_eq2 op2 => exact op2.elim
      | _ => cases hi
    · cases a2 with
      | same other =>
        cases b2 with
        | same => exact hpq
        | stake hi' => exact absurd hi' hi
        | distribute acc => exact absurd acc (other rfl)
        | fill acc => exact absurd acc (other rfl)
      | stake hi' => exact absurd hi' hi
      | fill acc =>
        cases b2 with
        | same other => exact absurd acc (other rfl)
        | stake hi' => exact absurd hi' hi
        | fill => rfl
      | distribute acc _ am1 op1 =>
        cases b2 with
        | same other => exact absurd acc (other rfl)
        | stake hi' => exact absurd hi' hi
        | distribute _ _ am2 op2 =>
          rw [distribute_ok okp.sorted] at op1
          rw [distribute_ok okq.sorted] at op2
          obtain ⟨-, -, ⟨-, rfl⟩ | ⟨-, -, -, -, -, rfl⟩⟩ := op1 <;>
          obtain ⟨-, -, ⟨-, rfl⟩ | ⟨-, -, -, -, -, rfl⟩⟩ := op2 <;> rfl
  · cases a2 with
    | same other =>
      cases b2 with
      | same => exact hpq
      | stake hi' => cases hi'
      | fill acc => exact absurd acc (other rfl)
    | stake hi' => cases hi'
    | fill acc =>
      cases b2 with
      | same other => exact absurd acc (other rfl)
      | stake hi' => cases hi'
      | fill => rfl

end

/-- The distributions of the pool at `k`, none if there is no pool. -/
def HistAt (env : Env) (w : World) (k : Key) (c : SMap) : Prop :=
  (∃ p, PoolAt env w k p ∧ c = p.cumulative) ∨ (∀ p, ¬ PoolAt env w k p) ∧ c = []

theorem HistAt.eq {w : World} {k : Key} {c : SMap} {p : Pool} (h : HistAt env w k c) (hp : PoolAt env w k p) :
    c = p.cumulative := by
  rcases h with ⟨q, h1, rfl⟩ | ⟨h1, -⟩
  · rw [PoolAt.unique h1 hp]
  · exact absurd hp (h1 p)

theorem HistAt.exists (w : World) (k : Key) : ∃ c, HistAt env w k c := by
  by_cases h : ∃ p, PoolAt env w k p
  · obtain ⟨p, hp⟩ := h; exact ⟨_, Or.inl ⟨p, hp, rfl⟩⟩
  · exact ⟨[], Or.inr ⟨fun p hp => h ⟨p, hp⟩, rfl⟩⟩

/-- What happens to two minings, with payments. -/
def Gains (c c' : SMap) (x x' : Nat) (m m1 n n1 : Mining) : Prop :=
  Dom c c' → Sync c c' m.index n.index →
    Sync c c' m1.index n1.index ∧ m1.unclaimed + x + n.unclaimed ≤ n1.unclaimed + x' + m.unclaimed

theorem Fares.gains {c c' : SMap} {m m1 n n1 : Mining} (h : Fares c c' m m1 n n1) {x x' : Nat} (hx : x = 0) (hx' : x' = 0) :
    Gains c c' x x' m m1 n n1 := by
  intro a b
  obtain ⟨h1, h2⟩ := h a b
  exact ⟨h1, by omega⟩

theorem claimedOut_other {accs : List AccountInfo} {k : Key} {i : Ix} {r : Option Nat} (h : i ≠ .claim) :
    claimedOut accs k i r = 0 := by
  cases i <;> first | rfl | exact absurd rfl h

theorem delChecked_pool (hinj : env.PdaInjective) {w : World} {P D : Key} {x : Mining} (h : DelChecked env w P D x)
    (ht : x.accountType = 2) : x.rewardPool = P := by
  rcases h.kind with ⟨-, hi⟩ | hb
  · obtain ⟨o, ho⟩ := h.addr
    exact (hinj.mining _ _ _ _ _ _ _ hi.addr ho).2.1
  · rw [hb.type] at ht; cases ht

/-- An initialized mining in both worlds. -/
theorem Tied.mining {now : Nat} {v v' w w' : World} {accs : List AccountInfo} {i i' : Ix} {r r' : Option Nat}
    (ht : Tied env v w) (hii : IxPair i i')
    (h1 : Step env now v v' accs i r) (h2 : Step env now w w' accs i' r') {k : Key} {m m' n n' : Mining}
    (hm : MiningAt env v k m) (hty : m.accountType = 2) (hn : MiningAt env w k n) (hmn : SameStake m n)
    (hm' : MiningAt env v' k m') (hn' : MiningAt env w' k n') :
    SameStake m' n' ∧ (env.PdaInjective → HonestArgs env v accs i → ∀ c c', HistAt env v m.rewardPool c →
      HistAt env w m.rewardPool c' → Gains c c' (claimedOut accs k i r) (claimedOut accs k i' r') m m' n n') := by
  have same : ∀ {v v' w w' : World}, v' k = v k → w' k = w k → MiningAt env v k m → MiningAt env w k n →
      MiningAt env v' k m' → MiningAt env w' k n' → m' = m ∧ n' = n := by
    intro v v' w w' e1 e2 a1 a2 a3 a4
    exact ⟨MiningAt.unique ((miningAt_congr e1).mp a3) a1, MiningAt.unique ((miningAt_congr e2).mp a4) a2⟩
  have unchanged : claimedOut accs k i r = 0 → claimedOut accs k i' r' = 0 → m' = m → n' = n →
      SameStake m' n' ∧ (env.PdaInjective → HonestArgs env v accs i → ∀ c c', HistAt env v m.rewardPool c →
      HistAt env w m.rewardPool c' → Gains c c' (claimedOut accs k i r) (claimedOut accs k i' r') m m' n n') := by
    rintro z1 z2 rfl rfl
    refine ⟨hmn, fun _ _ c c' _ _ => ?_⟩
    rw [z1, z2]
    exact Fares.gains (.of_eq rfl rfl rfl rfl) rfl rfl
  have tok : ∀ j, (v j).owner = env.tokenProgram → k ≠ j := by
    rintro j hj rfl; exact env.program_ne_token (hm.1.symm.trans hj)
  have sys : ∀ j, (v j).owner = env.systemProgram → k ≠ j := by
    rintro j hj rfl; exact env.program_ne_system (hm.1.symm.trans hj)
  have tok' : ∀ j, (w j).owner = env.tokenProgram → k ≠ j := by
    rintro j hj rfl; exact env.program_ne_token (hn.1.symm.trans hj)
  have sys' : ∀ j, (w j).owner = env.systemProgram → k ≠ j := by
    rintro j hj rfl; exact env.program_ne_system (hn.1.symm.trans hj)
  rcases hii with rfl | ⟨f, t, f', t', rfl, rfl⟩
  · cases h1 with
    | @stake _ P M A D p0 p1 m0 m1 d d' accs_eq op chk del quiet same sfo ok' sameDel eff =>
      cases h2 with
      | @stake _ P2 M2 A2 D2 q0 q1 n0 n1 e e' accs_eq2 op2 chk2 del2 quiet2 same2 sfo2 ok2' sameDel2 eff2 =>
        obtain ⟨rfl, rfl, rfl, rfl⟩ := accs_eq.unique accs_eq2
        have hop := ht.stake chk chk2 del del2 eff eff2 op op2
        have hz : i ≠ .claim := by rintro rfl; exact op.elim
        rcases eff.minings hm with ⟨rfl, rfl, a1⟩ | ⟨rfl, ne, rfl, y, rfl, a1⟩ | ⟨ne1, ne2, a1⟩
        · obtain rfl := MiningAt.unique hm' a1
          obtain rfl := MiningAt.unique hn eff2.mining
          obtain rfl := MiningAt.unique hn' eff2.mining'
          refine ⟨hop.mining, fun _ _ c c' hc hc' => ?_⟩
          rw [chk.inPool] at hc hc'
          obtain rfl := hc.eq eff.pool
          obtain rfl := hc'.eq eff2.pool
          exact hop.fares.gains (claimedOut_other hz) (claimedOut_other hz)
        · obtain rfl := MiningAt.unique hm' a1
          rcases eff2.minings hn with ⟨h0, -⟩ | ⟨-, -, rfl, y2, rfl, b1⟩ | ⟨-, h0, -⟩
          · exact absurd h0 ne
          · obtain rfl := MiningAt.unique hn' b1
            obtain ⟨x', y', z1, z2, -, z3, z4⟩ := hop.delegate m n rfl rfl (del m rfl).ok hmn
            cases z1; cases z2
            refine ⟨z3, fun hinj _ c c' hc hc' => ?_⟩
            rw [delChecked_pool hinj (del m rfl) hty] at hc hc'
            obtain rfl := hc.eq eff.pool
            obtain rfl := hc'.eq eff2.pool
            exact z4.gains (claimedOut_other hz) (claimedOut_other hz)
          · exact absurd rfl h0
        · rcases eff2.minings hn with ⟨h0, -⟩ | ⟨h0, -⟩ | ⟨-, -, b1⟩
          · exact absurd h0 ne1
          · exact absurd h0 ne2
          · exact unchanged (claimedOut_other hz) (claimedOut_other hz) (MiningAt.unique hm' a1) (MiningAt.unique hn' b1)
      | _ => exact op.elim
    | @redelegate a nd P M A O Old New rest p0 p1 m0 m1 od od' dn dn' accs_eq signed op chk newDel oldOk oldAt ne quiet
        same0 sfo ok' sameNew sameOld neP eff =>
      cases h2 with
      | stake accs_eq2 op2 => exact op2.elim
      | @redelegate a2 nd2 P2 M2 A2 O2 Old2 New2 rest2 q0 q1 n0 n1 oe oe' en en' accs_eq2 signed2 op2 chk2 newDel2 oldOk2
          oldAt2 ne2 quiet2 same2 sfo2 ok2' sameNew2 sameOld2 neP2 eff2 =>
        rw [accs_eq] at accs_eq2; cases accs_eq2
        obtain ⟨hop, hold⟩ := ht.redelegate chk chk2 oldOk oldOk2 eff eff2 op op2
        by_cases hk : k = M.key
        · subst hk
          obtain rfl := MiningAt.unique hm eff.mining
          obtain rfl := MiningAt.unique hm' eff.mining'
          obtain rfl := MiningAt.unique hn eff2.mining
          obtain rfl := MiningAt.unique hn' eff2.mining'
          refine ⟨hop.mining, fun _ _ c c' hc hc' => ?_⟩
          rw [chk.inPool] at hc hc'
          obtain rfl := hc.eq eff.pool
          obtain rfl := hc'.eq eff2.pool
          exact hop.fares.gains rfl rfl
        · by_cases hk2 : k = Old.key
          · subst hk2
            rcases eff.old with ⟨h1, _⟩ | ⟨_, _, x, x', rfl, rfl, h3⟩
            · exact absurd h1 hk
            rcases eff2.old with ⟨h1, _⟩ | ⟨_, _, y, y', rfl, rfl, h4⟩
            · exact absurd h1 hk
            obtain ⟨rfl, b1⟩ := h3 _ hm
            obtain ⟨rfl, b2⟩ := h4 _ hn
            obtain rfl := MiningAt.unique hm' b1
            obtain rfl := MiningAt.unique hn' b2
            obtain ⟨_, _, z1, z2, -, z3, z4⟩ := hold m n rfl rfl (oldOk m rfl) hmn
            cases z1; cases z2
            refine ⟨z3, fun _ hh c c' hc hc' => ?_⟩
            have := hh Old P m (by rw [accs_eq]; rfl) (by rw [accs_eq]; rfl) hm hty
            rw [this] at hc hc'
            obtain rfl := hc.eq eff.pool
            obtain rfl := hc'.eq eff2.pool
            exact z4.gains rfl rfl
          · by_cases hk3 : k = New.key
            · subst hk3
              rcases eff.new with ⟨h1, _⟩ | ⟨_, _, x, x', rfl, rfl, h3⟩
              · exact absurd h1 hk
              rcases eff2.new with ⟨h1, _⟩ | ⟨_, _, y, y', rfl, rfl, h4⟩
              · exact absurd h1 hk
              obtain ⟨rfl, b1⟩ := h3 _ hm
              obtain ⟨rfl, b2⟩ := h4 _ hn
              obtain rfl := MiningAt.unique hm' b1
              obtain rfl := MiningAt.unique hn' b2
              obtain ⟨_, _, z1, z2, -, z3, z4⟩ := hop.delegate m n rfl rfl (newDel m rfl).ok hmn
              cases z1; cases z2
              refine ⟨z3, fun hinj _ c c' hc hc' => ?_⟩
              rw [delChecked_pool hinj (newDel m rfl) hty] at hc hc'
              obtain rfl := hc.eq eff.pool
              obtain rfl := hc'.eq eff2.pool
              exact z4.gains rfl rfl
            · have e1 := eff.frame k (by rintro rfl; exact PoolAt.not_mining eff.pool hm) hk hk2 hk3
              have e2 := eff2.frame k (by rintro rfl; exact PoolAt.not_mining eff2.pool hn) hk hk2 hk3
              obtain ⟨z1, z2⟩ := same e1 e2 hm hn hm' hn'
              exact unchanged rfl rfl z1 z2
    | @decrease o a A P M rest p m1 m1' accs_eq chk pool op mining mining' same1 ok' sfo frame shell =>
      cases h2 with
      | stake accs_eq2 op2 => exact op2.elim
      | @decrease _ _ A2 P2 M2 rest2 p2 m2 m2' accs_eq2 chk2 pool2 op2 mining2 mining2' same2 ok2' sfo2 frame2 shell2 =>
        rw [accs_eq] at accs_eq2; cases accs_eq2
        by_cases hk : k = M.key
        · subst hk
          obtain rfl := MiningAt.unique hm mining
          obtain rfl := MiningAt.unique hm' mining'
          obtain rfl := MiningAt.unique hn mining2
          obtain rfl := MiningAt.unique hn' mining2'
          exact ⟨(decrease_pair (c := []) (c' := []) hmn op op2).1, fun _ _ c c' _ _ => (decrease_pair hmn op op2).2.gains rfl rfl⟩
        · obtain ⟨z1, z2⟩ := same (frame k hk) (frame2 k hk) hm hn hm' hn'
          exact unchanged rfl rfl z1 z2
    | @claim P T V M O A U K rest p m1 m2 x accs_eq signedO signedA eff =>
      cases h2 with
      | stake accs_eq2 op2 => exact op2.elim
      | @claim P2 T2 V2 M2 O2 A2 U2 K2 rest2 q n1 n2 x2 accs_eq2 signedO2 signedA2 eff2 =>
        rw [accs_eq] at accs_eq2; cases accs_eq2
        have hf : miningArg accs .claim = some M.key := by rw [accs_eq]; rfl
        obtain ⟨t, htk, -⟩ := eff.userTok
        obtain ⟨t2, htk2, -⟩ := eff2.userTok
        by_cases hk : k = M.key
        · subst hk
          obtain rfl := MiningAt.unique hm eff.mining
          obtain rfl := MiningAt.unique hm' eff.mining'
          obtain rfl := MiningAt.unique hn eff2.mining
          obtain rfl := MiningAt.unique hn' eff2.mining'
          obtain ⟨z1, z2⟩ := refresh_pair eff.good.ok.history eff2.good.ok.history eff.miningOk hmn eff.refreshed eff2.refreshed
          refine ⟨?_, fun _ _ c c' hc hc' => ?_⟩
          · rw [z1]; rfl
          · rw [eff.inPool] at hc hc'
            obtain rfl := hc.eq eff.pool
            obtain rfl := hc'.eq eff2.pool
            intro hd hsy
            obtain ⟨y1, y2⟩ := z2 hd hsy
            refine ⟨y1, ?_⟩
            simp only [claimedOut, hf, if_true, eff.amount, eff2.amount]
            omega
        · obtain ⟨z1, z2⟩ := same (eff.frame k hk (tok _ eff.vaultTok) (tok _ htk.1))
            (eff2.frame k hk (tok' _ eff2.vaultTok) (tok' _ htk2.1)) hm hn hm' hn'
          have hne : ¬ M.key = k := fun h => hk h.symm
          exact unchanged (by simp [claimedOut, hf, hne]) (by simp [claimedOut, hf, hne]) z1 z2
    | distribute _ _ _ _ pool _ _ _ _ _ frame =>
      cases h2 with
      | stake accs_eq2 op2 => exact op2.elim
      | distribute _ _ _ _ pool2 _ _ _ _ _ frame2 =>
        obtain ⟨z1, z2⟩ := same (frame k (by rintro rfl; exact PoolAt.not_mining pool hm))
          (frame2 k (by rintro rfl; exact PoolAt.not_mining pool2 hn)) hm hn hm' hn'
        exact unchanged rfl rfl z1 z2
    | @fill r e P T V F S K rest q w1 accs_eq signed auth good pool vault nonzero future later endBound bound pool' w1_frame
        transfer frame neS neV shell =>
      cases h2 with
      | stake accs_eq2 op2 => exact op2.elim
      | @fill _ _ P2 T2 V2 F2 S2 K2 rest2 q2 w2 accs_eq2 signed2 auth2 good2 pool2 vault2 nonzero2 future2 later2 endBound2
          bound2 pool2' w2_frame transfer2 frame2 neS2 neV2 shell2 =>
        obtain ⟨t, t', htk, -⟩ := transfer.srcTok
        obtain ⟨u, u', hu, -⟩ := transfer.dstTok
        obtain ⟨t2, t2', htk2, -⟩ := transfer2.srcTok
        obtain ⟨u2, u2', hu2, -⟩ := transfer2.dstTok
        obtain ⟨z1, z2⟩ := same (frame k (by rintro rfl; exact PoolAt.not_mining pool hm)
            (tok _ (by rw [← w1_frame _ neS]; exact htk.1)) (tok _ (by rw [← w1_frame _ neV]; exact hu.1)))
          (frame2 k (by rintro rfl; exact PoolAt.not_mining pool2 hn) (tok' _ (by rw [← w2_frame _ neS2]; exact htk2.1))
            (tok' _ (by rw [← w2_frame _ neV2]; exact hu2.1))) hm hn hm' hn'
        exact unchanged rfl rfl z1 z2
    | @close M O G A P rest p m1 m2 accs_eq signedO signedA good pool auth mining init miningOk owner refreshed sfo paid target
        closed credited frame ne neG =>
      cases h2 with
      | stake accs_eq2 op2 => exact op2.elim
      | @close M2 O2 G2 A2 P2 rest2 p2 n1 n2 accs_eq2 signedO2 signedA2 good2 pool2 auth2 mining2 init2 miningOk2 owner2 refreshed2
          sfo2 paid2 target2 closed2 credited2 frame2 ne2 neG2 =>
        rw [accs_eq] at accs_eq2; cases accs_eq2
        by_cases hk : k = M.key
        · subst hk
          have := hm'.2; rw [closed] at this; cases this
        · obtain ⟨z1, z2⟩ := same (frame k hk (sys _ target)) (frame2 k hk (sys' _ target2)) hm hn hm' hn'
          exact unchanged rfl rfl z1 z2
    | @initPool f d P T V Y A R K S rest bump accs_eq signedY signedA owned len fresh notPda vault pool' vaultBefore vault'
        payer payer' frame =>
      cases h2 with
      | stake accs_eq2 op2 => exact op2.elim
      | @initPool _ _ P2 T2 V2 Y2 A2 R2 K2 S2 rest2 bump2 accs_eq2 signedY2 signedA2 owned2 len2 fresh2 notPda2 vault2 pool2'
          vaultBefore2 vault2' payer2 payer2' frame2 =>
        rw [accs_eq] at accs_eq2; cases accs_eq2
        by_cases hk : k = P.key
        · subst hk
          have := hm'.2; rw [pool'] at this; cases this
        · obtain ⟨z1, z2⟩ := same (frame k hk (sys _ vaultBefore.2.2) (sys _ payer.2.1))
            (frame2 k hk (sys' _ vaultBefore2.2.2) (sys' _ payer2.2.1)) hm hn hm' hn'
          exact unchanged rfl rfl z1 z2
    | initMining _ _ _ _ before _ payer _ frame =>
      cases h2 with
      | stake accs_eq2 op2 => exact op2.elim
      | initMining _ _ _ _ before2 _ payer2 _ frame2 =>
        obtain ⟨z1, z2⟩ := same (frame k (sys _ before.2.2) (sys _ payer.2.1))
            (frame2 k (sys' _ before2.2.2) (sys' _ payer2.2.1)) hm hn hm' hn'
        exact unchanged rfl rfl z1 z2
  · obtain ⟨z1, z2⟩ : m' = m ∧ n' = n := by
      cases h1 with
      | stake accs_eq2 op2 => exact op2.elim
      | @fill r e P T V F S K rest q w1 accs_eq signed auth good pool vault nonzero future later endBound bound pool' w1_frame
          transfer frame neS neV shell =>
        cases h2 with
        | stake accs_eq2 op2 => exact op2.elim
        | @fill _ _ P2 T2 V2 F2 S2 K2 rest2 q2 w2 accs_eq2 signed2 auth2 good2 pool2 vault2 nonzero2 future2 later2 endBound2
            bound2 pool2' w2_frame transfer2 frame2 neS2 neV2 shell2 =>
          obtain ⟨t, t', htk, -⟩ := transfer.srcTok
          obtain ⟨u, u', hu, -⟩ := transfer.dstTok
          obtain ⟨t2, t2', htk2, -⟩ := transfer2.srcTok
          obtain ⟨u2, u2', hu2, -⟩ := transfer2.dstTok
          exact same (frame k (by rintro rfl; exact PoolAt.not_mining pool hm)
              (tok _ (by rw [← w1_frame _ neS]; exact htk.1)) (tok _ (by rw [← w1_frame _ neV]; exact hu.1)))
            (frame2 k (by rintro rfl; exact PoolAt.not_mining pool2 hn) (tok' _ (by rw [← w2_frame _ neS2]; exact htk2.1))
              (tok' _ (by rw [← w2_frame _ neV2]; exact hu2.1))) hm hn hm' hn'
    exact unchanged rfl rfl z1 z2

end Verif
