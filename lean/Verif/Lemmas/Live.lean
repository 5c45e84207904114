import Verif.Lemmas.ClaimOk
import Verif.Lemmas.Distribution
import Verif.Spec.Live
/-!
When distributions, withdrawals and deposits succeed.
-/

namespace Verif

open Spec

variable {env : Env}

theorem Spec.RunsWith.weaken {C C' : Chain → Event → Prop} (hC : ∀ s e, C s e → C' s e) {s s' : Chain} {es : List Event}
    (h : RunsWith env C s es s') : RunsWith env C' s es s' := by
  induction h with
  | nil s => exact .nil s
  | cons hv hc _ ih => exact .cons hv (hC _ _ hc) ih

/-! ## The index is bounded by what was filled -/

theorem fill_bound {k : Key} {s s' : Chain} {es : List Event} (hr : CleanRun env s es s') :
    Wf env s.now s.world → ∀ F, (∀ p, PoolAt env s.world k p → p.index + 10 ^ 16 * p.tokensAvailable ≤ 10 ^ 16 * F) →
    ∀ p, PoolAt env s'.world k p →
      p.index + 10 ^ 16 * p.tokensAvailable ≤ 10 ^ 16 * (F + totalIn env (filledBy env k) s es) := by
  induction hr with
  | nil s => intro _ F h p hp; exact h p hp
  | @cons s s' e es hv hc _ ih =>
    intro hw F h p hp
    rw [totalIn, ← Nat.add_assoc]
    refine ih (wf_apply hw hv hc) _ (fun p' hp' => ?_) p hp
    rcases apply_pool_back hw hv hc hp' with ⟨q, h1, h2⟩ | ⟨bump, d, f, t, a, rfl, -⟩
    · have hq := h q h1
      cases h2 with
      | same none => rw [Nat.mul_add]; omega
      | @ix accs i w' ret _ ok change =>
        obtain ⟨b1, b2⟩ := change.budget (poolAt_good hw h1).ok
        have b3 := Nat.div_le_self (10 ^ 16 * distributedFrom accs s.now k q i) (totalOn q (midnight s.now)).toNat
        have b4 : filledBy env k s (.ix accs i) = addedTo accs k i := by simp [filledBy, succeeded, ok]
        rw [b4, b2, Nat.mul_add]
        have b5 := congrArg (10 ^ 16 * ·) b1
        simp only [Nat.mul_add] at b5
        omega
    · simp [Pool.init, Pool.zero]

theorem index_bound {k : Key} {s0 s : Chain} {es : List Event} (hg : Genesis env s0) (hr : CleanRun env s0 es s)
    {p : Pool} (hp : PoolAt env s.world k p) :
    p.index + 10 ^ 16 * p.tokensAvailable ≤ 10 ^ 16 * totalIn env (filledBy env k) s0 es := by
  have := fill_bound (k := k) hr (wf_genesis hg) 0 (fun p hp => by
    have := (hg.owned k hp.1).1; rw [hp.2] at this; cases this) p hp
  simpa using this

/-! ## Distribution -/

theorem distribute_succeeds {caps : Caps} {now r : Nat} {p : Pool} (hp : PoolOk now p)
    (hpos : 0 < totalOn p (midnight now)) (hr : r ≤ p.tokensAvailable)
    (hi : p.index + 10 ^ 16 * p.tokensAvailable < 2 ^ 128) : ∃ p', p.distribute caps now r = .ok p' := by
  have hb := bod_eq_midnight now
  unfold totalOn at hpos
  have h1 : p.totalShare ≠ 0 := by omega
  have h2 : dueBy p.diffs (bod now) ≤ p.totalShare := by rw [hb]; omega
  by_cases hc : p.cumulative.contains (bod now) = true
  · exact ⟨_, (distribute_ok hp.sorted).mpr ⟨h1, h2, Or.inl ⟨hc, rfl⟩⟩⟩
  · refine ⟨_, (distribute_ok hp.sorted).mpr ⟨h1, h2, Or.inr ⟨hc, ?_, by rw [hb]; omega, ?_, hr, rfl⟩⟩⟩
    · unfold PRECISION U128; omega
    · have := Nat.div_le_self (PRECISION * r) (p.totalShare - dueBy p.diffs (bod now))
      have h3 : PRECISION * r ≤ 10 ^ 16 * p.tokensAvailable := by unfold PRECISION; omega
      unfold U128
      omega

theorem distribute_exec {now : Nat} {w : World} (hw : Wf env now w) {accs : List AccountInfo} {P B : AccountInfo}
    {rest : List AccountInfo} {p p' : Pool} (hr : DistributeReady env w accs P B rest p)
    (ht : p.tokensAvailable < 2 ^ 64)
    (hd : p.distribute env.caps now (dailyAmount p.tokensAvailable p.distributionEndsAt now) = .ok p') :
    exec env now w accs .distributeRewards = .ok (putPool w P.key p', none) := by
  have gp := poolAt_good hw hr.pool
  refine exec_ok.mpr ⟨?_, ?_⟩
  · have hacc := hr.accs_eq
    subst hacc
    simp only [process, processDistributeRewards, res_bind_ok, nextWithOwner_ok, nextSigner_ok, assertKey_ok, loadPool_ok,
      res_pure_ok, Prod.exists]
    exact ⟨_, ⟨P, _, ⟨rfl, hr.pool.1⟩, B, _, ⟨rfl, hr.authority.2⟩, p,
      ⟨Nat.le_of_eq gp.len.symm, by rw [hr.pool.2]; rfl⟩, _, rewardsToDistribute_eq now (by unfold U64; omega), (),
      hr.authority.1, p', hd, rfl⟩, rfl⟩
  · intro a ha hro
    refine putPool_ne _ _ fun e => ?_
    have := hr.writable a ha e
    rw [hro] at this; cases this

/-! ## Stake operations -/

theorem member_addr {now : Nat} {w : World} (hw : Wf env now w) {P k : Key} {m : Mining} (hm : Member env w P k m)
    (hP : P ≠ 0) : MINING_LEN ≤ (w k).len ∧ env.miningAddr m.owner P m.bump = some k := by
  rcases (miningAt_ok hw hm.1).2 with h | h
  · exact ⟨Nat.le_of_eq h.len.symm, hm.2 ▸ h.addr⟩
  · exact absurd (hm.2.symm.trans h.pool) hP

theorem Spec.StakeReady.call {now : Nat} {w : World} (hw : Wf env now w) {accs : List AccountInfo}
    {P M A D : AccountInfo} {rest : List AccountInfo} {p : Pool} {m : Mining} {d : Option Mining} {owner delegate : Key}
    (h : StakeReady env w accs P M A D rest p m d owner delegate) :
    StakeCall env w accs owner delegate P M A D p m d := by
  have gp := poolAt_good hw h.pool
  have hP0 := (hw P.key).nonzero h.pool.1
  have hMP : M.key ≠ P.key := by
    intro e; have := h.mining.1; rw [e] at this; exact PoolAt.not_mining h.pool this
  obtain ⟨m1, m2⟩ := member_addr hw h.mining hP0
  refine ⟨⟨rest, h.accs_eq⟩, h.pool.1, h.mining.1.1, h.authority.2, ?_, hMP, ⟨m1, by rw [h.mining.1.2]; rfl,
    Nat.le_of_eq gp.len.symm, by rw [h.pool.2]; rfl, by rw [h.owner]; exact m2, h.authority.1, h.mining.2, h.owner.symm⟩,
    ?_⟩
  · rcases h.delegate with ⟨e, -⟩ | ⟨-, x, -, hx, -⟩
    · rw [e]; exact h.mining.1.1
    · exact hx.1.1
  · rcases h.delegate with ⟨e, rfl⟩ | ⟨e, x, rfl, hx, rfl⟩
    · exact Or.inl ⟨e.symm, rfl⟩
    · obtain ⟨x1, x2⟩ := member_addr hw hx hP0
      refine Or.inr ⟨Ne.symm e, x, rfl, ?_, x1, by rw [hx.1.2]; rfl, x2⟩
      intro e'; have := hx.1; rw [e'] at this; exact PoolAt.not_mining h.pool this

/-- The world after a stake operation. -/
def stakeWorld (env : Env) (w : World) (P M D : Key) (p : Pool) (m : Mining) (d : Option Mining) : World :=
  putDelegate env (putMining env (putPool w P p) M m) D d

theorem stakeWorld_ne (w : World) {P M D k : Key} (p : Pool) (m : Mining) (d : Option Mining) (h1 : k ≠ P) (h2 : k ≠ M)
    (h3 : k ≠ D) : stakeWorld env w P M D p m d k = w k := by
  unfold stakeWorld
  rw [putDelegate_ne _ _ h3, putMining_ne _ _ h2, putPool_ne _ _ h1]

theorem Spec.StakeReady.readonly {w : World} {accs : List AccountInfo} {P M A D : AccountInfo} {rest : List AccountInfo}
    {p : Pool} {m : Mining} {d : Option Mining} {owner delegate : Key}
    (h : StakeReady env w accs P M A D rest p m d owner delegate) (p' : Pool) (m' : Mining) (d' : Option Mining) :
    ∀ a ∈ accs, a.isWritable = false → stakeWorld env w P.key M.key D.key p' m' d' a.key = w a.key := by
  intro a ha hro
  refine stakeWorld_ne _ _ _ _ (fun e => ?_) (fun e => ?_) (fun e => ?_)
  · have := h.writable a ha (Or.inl e); rw [hro] at this; cases this
  · have := h.writable a ha (Or.inr (Or.inl e)); rw [hro] at this; cases this
  · have := h.writable a ha (Or.inr (Or.inr e)); rw [hro] at this; cases this

theorem withdraw_exec {now : Nat} {w : World} (hw : Wf env now w) {accs : List AccountInfo} {P M A D : AccountInfo}
    {rest : List AccountInfo} {p p' : Pool} {m m' : Mining} {d d' : Option Mining} {owner delegate : Key} {a : Nat}
    (h : StakeReady env w accs P M A D rest p m d owner delegate) (hd : p.withdraw now m a d = .ok (p', m', d')) :
    exec env now w accs (.withdrawMining a owner delegate) =
      .ok (stakeWorld env w P.key M.key D.key p' m' d', none) := by
  have hc := h.call hw
  have hacc := h.accs_eq
  refine exec_ok.mpr ⟨?_, h.readonly p' m' d'⟩
  subst hacc
  simp only [process, processWithdrawMining, res_bind_ok, nextWithOwner_ok, nextSigner_ok, ensure_ok, getPoolAndMining_ok,
    loadDelegate_ok, res_pure_ok, Prod.exists]
  exact ⟨_, ⟨P, _, ⟨rfl, hc.pool_owned⟩, M, _, ⟨rfl, hc.mining_owned⟩, A, _, ⟨rfl, hc.signed⟩, D, rest,
    ⟨rfl, hc.del_owned⟩, (), hc.ne, p, m, hc.loaded, d, hc.delegate, p', m', d', hd, rfl⟩, rfl⟩

theorem deposit_exec {now : Nat} {w : World} (hw : Wf env now w) {accs : List AccountInfo} {P M A D : AccountInfo}
    {rest : List AccountInfo} {p p' : Pool} {m m' : Mining} {d d' : Option Mining} {owner delegate : Key} {a : Nat}
    {per : LockupPeriod} (h : StakeReady env w accs P M A D rest p m d owner delegate)
    (hd : p.deposit env.caps now m a per d = .ok (p', m', d')) :
    exec env now w accs (.depositMining a per owner delegate) =
      .ok (stakeWorld env w P.key M.key D.key p' m' d', none) := by
  have hc := h.call hw
  have hacc := h.accs_eq
  refine exec_ok.mpr ⟨?_, h.readonly p' m' d'⟩
  subst hacc
  simp only [process, processDepositMining, res_bind_ok, nextWithOwner_ok, nextSigner_ok, ensure_ok, getPoolAndMining_ok,
    loadDelegate_ok, res_pure_ok, Prod.exists]
  exact ⟨_, ⟨P, _, ⟨rfl, hc.pool_owned⟩, M, _, ⟨rfl, hc.mining_owned⟩, A, _, ⟨rfl, hc.signed⟩, D, rest,
    ⟨rfl, hc.del_owned⟩, (), hc.ne, p, m, hc.loaded, d, hc.delegate, p', m', d', hd, rfl⟩, rfl⟩

theorem extend_exec {now : Nat} {w : World} (hw : Wf env now w) {accs : List AccountInfo} {P M A D : AccountInfo}
    {rest : List AccountInfo} {p p' : Pool} {m m' : Mining} {d d' : Option Mining} {owner delegate : Key}
    {op np : LockupPeriod} {ts b a : Nat} (h : StakeReady env w accs P M A D rest p m d owner delegate)
    (hd : p.extend env.caps now m op np ts b a d = .ok (p', m', d')) :
    exec env now w accs (.extendStake op np ts b a owner delegate) =
      .ok (stakeWorld env w P.key M.key D.key p' m' d', none) := by
  have hc := h.call hw
  have hacc := h.accs_eq
  refine exec_ok.mpr ⟨?_, h.readonly p' m' d'⟩
  subst hacc
  simp only [process, processExtendStake, res_bind_ok, nextWithOwner_ok, nextSigner_ok, ensure_ok, getPoolAndMining_ok,
    loadDelegate_ok, res_pure_ok, Prod.exists]
  exact ⟨_, ⟨P, _, ⟨rfl, hc.pool_owned⟩, M, _, ⟨rfl, hc.mining_owned⟩, A, _, ⟨rfl, hc.signed⟩, D, rest,
    ⟨rfl, hc.del_owned⟩, (), hc.ne, p, m, hc.loaded, d, hc.delegate, p', m', d', hd, rfl⟩, rfl⟩

/-! ## Withdrawals -/

theorem dueBy_later {l : List (Nat × Nat)} {b : Nat} : dueBy (after l b) b = 0 := by
  have := dueBy_after l (Nat.le_refl b); omega

theorem refresh_share {now : Nat} {cum : SMap} (hc : History cum) {m m' : Mining} (hs : Sound now cum m)
    (h : m.refreshRewards now cum = .ok m') :
    (m'.share : Int) = weightOn m (midnight now) ∧ m'.stakeFromOthers = m.stakeFromOthers := by
  obtain ⟨-, -, c3, -, c5, -⟩ := refresh_current hc hs.ok hs.backed h
  unfold weightOn
  exact ⟨by omega, c3⟩

/-- Less delegated stake is owed less. -/
theorem owed_sfo_le {cum : SMap} (m : Mining) {n : Nat} (h : n ≤ m.stakeFromOthers) :
    owed { m with stakeFromOthers := n } cum ≤ owed m cum := by
  unfold owed pending
  have : earned (earningOn { m with stakeFromOthers := n }) m.index 0 cum ≤ earned (earningOn m) m.index 0 cum :=
    earned_le (fun d _ => by unfold earningOn; simp only; omega)
  simp only
  omega

theorem Sound.sfo {now : Nat} {cum : SMap} {m : Mining} (h : Sound now cum m) (n : Nat) :
    Sound now cum { m with stakeFromOthers := n } := ⟨⟨h.ok.sorted, h.ok.aligned⟩, h.backed, h.index, h.ahead⟩

/-- Stake a delegate earns with. -/
def delEarning (d : Option Mining) (u : Nat) : Nat := match d with | none => 0 | some x => earningOn x u

/-- The stake with which `n` tokens can be taken from a mining. -/
structure Takes (now : Nat) (p : Pool) (m : Mining) (d : Option Mining) (B : Nat) : Prop where
  pool : PoolOk now p
  mining : Sound now p.cumulative m
  small : m.share + m.stakeFromOthers < 2 ^ 64
  owed : owed m p.cumulative ≤ 10 ^ 16 * B
  bound : B < 2 ^ 64
  delegate : ∀ x, d = some x → Sound now p.cumulative x ∧ x.share + x.stakeFromOthers < 2 ^ 64 ∧
    Spec.owed x p.cumulative ≤ 10 ^ 16 * B
  cover : ∀ u, midnight now ≤ u → (earningOn m u : Int) + delEarning d u ≤ totalOn p u

theorem delegateSub_succeeds {now a B : Nat} {p : Pool} {x : Mining} (hp : History p.cumulative)
    (hx : Sound now p.cumulative x) (hs : x.share + x.stakeFromOthers < 2 ^ 64) (hB : B < 2 ^ 64)
    (ho : owed x p.cumulative ≤ 10 ^ 16 * B) (ha : a ≤ x.stakeFromOthers) (ht : a ≤ p.totalShare) :
    ∃ p' x', Pool.delegateSub now a p x = .ok (p', x') := by
  obtain ⟨x', hx'⟩ := refresh_succeeds hp (hx.sfo (x.stakeFromOthers - a)) (by simp only; omega) hB
    (Nat.le_trans (owed_sfo_le x (Nat.sub_le _ _)) ho)
  exact ⟨_, x', delegateSub_ok.mpr ⟨ha, ht, hx', rfl⟩⟩

theorem withdraw_succeeds {now a B : Nat} {p : Pool} {m : Mining} {d : Option Mining} (h : Takes now p m d B)
    (ha : Unlocked a m) (hd : ∀ x, d = some x → a ≤ x.stakeFromOthers) : ∃ r, p.withdraw now m a d = .ok r := by
  obtain ⟨m1, h1⟩ := refresh_succeeds h.pool.history h.mining h.small h.bound h.owed
  obtain ⟨r1, r2⟩ := refresh_share h.pool.history h.mining h1
  have hbod := bod_eq_midnight now
  have hle := dueBy_le_total m.diffs (midnight now)
  have hback := h.mining.backed
  have hcov := h.cover (midnight now) (Nat.le_refl _)
  unfold Unlocked at ha
  unfold totalOn at hcov
  have he : (earningOn m (midnight now) : Int) = weightOn m (midnight now) + m.stakeFromOthers := earning_eq hback _
  unfold weightOn at r1 he
  have hsh : a ≤ m1.share := by omega
  have htot : a + dueBy p.diffs (midnight now) ≤ p.totalShare := by omega
  have hw : ∃ p' d', Pool.withDelegate { p with
      totalShare := p.totalShare - a - dueBy p.diffs (bod now),
      diffs := after p.diffs (bod now) } d (Pool.delegateSub now a) = .ok (p', d') := by
    cases d with
    | none => exact ⟨_, none, withDelegate_none.mpr ⟨rfl, rfl⟩⟩
    | some x =>
      obtain ⟨x1, x2, x3⟩ := h.delegate x rfl
      have hxa := hd x rfl
      have hxe := earning_eq x1.backed (midnight now)
      have hxl := dueBy_le_total x.diffs (midnight now)
      have hxb := x1.backed
      unfold weightOn at hxe
      simp only [delEarning] at hcov
      obtain ⟨p', x', hx⟩ := delegateSub_succeeds (a := a) (p := { p with
        totalShare := p.totalShare - a - dueBy p.diffs (bod now), diffs := after p.diffs (bod now) })
        h.pool.history x1 x2 h.bound x3 hxa (by rw [hbod]; simp only; omega)
      exact ⟨p', some x', withDelegate_some.mpr ⟨x', hx, rfl⟩⟩
  obtain ⟨p', d', hw⟩ := hw
  refine ⟨(p', { m1 with share := m1.share - a }, d'), ?_⟩
  unfold Pool.withdraw
  simp only [res_bind_ok, Prod.exists, safeSub_ok, res_pure_ok, Prod.mk.injEq]
  refine ⟨m1, h1, _, ⟨by omega, rfl⟩, _, ⟨hsh, rfl⟩, _, (poolConsume_ok (by exact h.pool.sorted)).mpr ⟨?_, rfl⟩, p', d',
    hw, rfl, rfl, rfl⟩
  simp only
  rw [hbod]; omega

/-! ## Deposits -/

theorem get_le_total (l : SMap) (e : Nat) : (l.get e).getD 0 ≤ total l := by
  cases h : l.get e with
  | none => exact Nat.zero_le _
  | some v =>
    have hm := SMap.get_some_mem h
    simp only [Option.getD_some]
    clear h
    induction l with
    | nil => cases hm
    | cons a l ih =>
      rw [total_cons]
      rcases List.mem_cons.mp hm with rfl | hm
      · exact Nat.le_add_right _ _
      · have := ih hm; omega

theorem deposit_succeeds {caps : Caps} {now a k n : Nat} {p : Pool} {m m1 : Mining} {d : Option Mining}
    {per : LockupPeriod} (hper : terms per = some (k, n)) (h1 : m.refreshRewards now p.cumulative = .ok m1)
    (hsh : m1.share ≤ p.totalShare) (hmd : total m1.diffs ≤ m1.share) (hpd : total p.diffs ≤ p.totalShare)
    (hfit : p.totalShare + a * k + a < 2 ^ 64) (hnow : midnight now + 86400 * n < 2 ^ 64)
    (hd : ∀ x, d = some x → x.stakeFromOthers + a < 2 ^ 64 ∧ ∃ x',
      ({ x with stakeFromOthers := x.stakeFromOthers + a } : Mining).refreshRewards now p.cumulative = .ok x') :
    ∃ r, p.deposit caps now m a per d = .ok r := by
  have hk : per.multiplier = k ∧ 1 ≤ k ∧ per.endTimestamp now = .ok (midnight now + 86400 * n) := by
    have hb := bod_eq_midnight now
    cases per <;> simp only [terms, Option.some.injEq, Prod.mk.injEq, reduceCtorEq] at hper <;>
      obtain ⟨rfl, rfl⟩ := hper <;>
      refine ⟨rfl, by decide, endTimestamp_ok.mpr ⟨_, rfl, ?_, ?_⟩⟩ <;>
      (unfold DAY; first | omega | (unfold U64; omega))
  obtain ⟨hk1, hk2, hk3⟩ := hk
  have hak : a ≤ a * k := Nat.le_mul_of_pos_right a hk2
  have hpe := get_le_total p.diffs (midnight now + 86400 * n)
  have hme := get_le_total m1.diffs (midnight now + 86400 * n)
  have hw : ∀ D : SMap, ∃ p' d', Pool.withDelegate { p with totalShare := p.totalShare + a * k, diffs := D } d
      (Pool.delegateAdd now a) = .ok (p', d') := by
    intro D
    cases d with
    | none => exact ⟨_, none, withDelegate_none.mpr ⟨rfl, rfl⟩⟩
    | some x =>
      obtain ⟨x1, x', hx⟩ := hd x rfl
      exact ⟨_, some x', withDelegate_some.mpr ⟨x', delegateAdd_ok.mpr ⟨by unfold U64; omega, by unfold U64; simp only; omega,
        hx, rfl⟩, rfl⟩⟩
  have hU : U64 = 2 ^ 64 := rfl
  obtain ⟨p', d', hw⟩ := hw (p.diffs.insert caps.pool (midnight now + 86400 * n)
    ((p.diffs.get (midnight now + 86400 * n)).getD 0 + (a * k - a)))
  unfold Pool.deposit
  have hf : LockupPeriod.flex.multiplier = 1 := rfl
  cases hg : m1.diffs.get (midnight now + 86400 * n) with
  | none =>
    refine ⟨(p', { m1 with share := m1.share + a * k, diffs := m1.diffs.insert caps.mining (midnight now + 86400 * n) (a * k - a) }, d'), ?_⟩
    simp only [res_bind_ok, safeMul64_ok, safeSub_ok, safeAdd64_ok, hk1, hf, Nat.mul_one]
    refine ⟨m1, h1, _, ⟨by omega, rfl⟩, _, ⟨by omega, rfl⟩, _, ⟨hak, rfl⟩, _, ⟨by omega, rfl⟩, _, ⟨by omega, rfl⟩, _, hk3,
      _, ⟨by omega, rfl⟩, ?_⟩
    rw [hg]
    simp only [res_bind_ok, res_pure_ok, Prod.exists]
    exact ⟨_, rfl, p', d', hw, rfl⟩
  | some old =>
    rw [hg] at hme
    simp only [Option.getD_some] at hme
    refine ⟨(p', { m1 with share := m1.share + a * k, diffs := m1.diffs.set (midnight now + 86400 * n) (old + (a * k - a)) }, d'), ?_⟩
    simp only [res_bind_ok, safeMul64_ok, safeSub_ok, safeAdd64_ok, hk1, hf, Nat.mul_one]
    refine ⟨m1, h1, _, ⟨by omega, rfl⟩, _, ⟨by omega, rfl⟩, _, ⟨hak, rfl⟩, _, ⟨by omega, rfl⟩, _, ⟨by omega, rfl⟩, _, hk3,
      _, ⟨by omega, rfl⟩, ?_⟩
    rw [hg]
    simp only [res_bind_ok, safeAdd64_ok, res_pure_ok, Prod.exists]
    exact ⟨_, ⟨by omega, rfl⟩, _, rfl, p', d', hw, rfl⟩

theorem dueBy_all (l : List (Nat × Nat)) : ∃ U, ∀ u, U ≤ u → dueBy l u = total l := by
  induction l with
  | nil => exact ⟨0, fun _ _ => rfl⟩
  | cons a l ih =>
    obtain ⟨U, ih⟩ := ih
    refine ⟨U + a.1, fun u hu => ?_⟩
    rw [dueBy_cons, total_cons, if_pos (by omega), ih u (by omega)]

/-- Stake delegated to a delegate. -/
def delSfo (d : Option Mining) : Nat := match d with | none => 0 | some x => x.stakeFromOthers

theorem Takes.final {now B : Nat} {p : Pool} {m : Mining} {d : Option Mining} (h : Takes now p m d B) :
    ((m.share - total m.diffs : Nat) + m.stakeFromOthers : Int) + delSfo d +
      total p.diffs ≤ p.totalShare := by
  obtain ⟨U1, h1⟩ := dueBy_all m.diffs
  obtain ⟨U2, h2⟩ := dueBy_all p.diffs
  have hc := h.cover (midnight now + U1 + U2) (by omega)
  unfold totalOn at hc
  rw [h2 _ (by omega)] at hc
  unfold earningOn at hc
  rw [h1 _ (by omega)] at hc
  have hb := h.mining.backed
  cases d with
  | none => simp only [delEarning, delSfo] at hc ⊢; omega
  | some x =>
    have hx := (h.delegate x rfl).1.backed
    have hx2 := dueBy_le_total x.diffs (midnight now + U1 + U2)
    simp only [delEarning, earningOn, delSfo] at hc ⊢; omega

theorem extend_succeeds {caps : Caps} {now a b k n B : Nat} {p : Pool} {m : Mining} {d : Option Mining}
    {op np : LockupPeriod} {ts : Nat} (h : Takes now p m d B) (hs : Settled p.cumulative now) (hb : Unlocked b m)
    (hx : op = .flex ∨ ∃ k n, terms op = some (k, n) ∧ midnight ts + 86400 * n ≤ now) (hnp : terms np = some (k, n))
    (hfit : p.totalShare + (b + a) * k + (b + a) < 2 ^ 64) (hnow : midnight now + 86400 * n < 2 ^ 64)
    (hd : ∀ x, d = some x → b ≤ x.stakeFromOthers ∧ x.share + x.stakeFromOthers + a < 2 ^ 64) :
    ∃ r, p.extend caps now m op np ts b a d = .ok r := by
  obtain ⟨m1, h1⟩ := refresh_succeeds h.pool.history h.mining h.small h.bound h.owed
  obtain ⟨c1, c2, c3, c4, c5, c6⟩ := refresh_current h.pool.history h.mining.ok h.mining.backed h1
  have hfin := h.final
  have hle := dueBy_le_total m.diffs (midnight now)
  have hsplit := total_after m.diffs (midnight now)
  have hback := h.mining.backed
  unfold Unlocked at hb
  have hbk : b + total m1.diffs ≤ m1.share := by rw [c4]; omega
  have hcov := h.cover (midnight now) (Nat.le_refl _)
  have he : (earningOn m (midnight now) : Int) = weightOn m (midnight now) + m.stakeFromOthers := earning_eq hback _
  unfold weightOn at he
  unfold totalOn at hcov
  -- the mining without the stake to extend
  have hc2 : Current now p.cumulative { m1 with share := m1.share - b } :=
    ⟨⟨c1.ok.sorted, c1.ok.aligned⟩, by simp only; omega, c1.index, c1.later⟩
  have ho2 : owed { m1 with share := m1.share - b } p.cumulative ≤ 10 ^ 16 * B := by
    refine Nat.le_trans (owed_le_now (now := now) h.pool.history c1.index rfl rfl fun x _ => ?_) (Nat.le_trans c2 h.owed)
    unfold earningOn; simp only; omega
  obtain ⟨m2, h2⟩ := refresh_succeeds h.pool.history (hc2.sound h.pool.history)
    (by have := h.small; simp only; omega) h.bound ho2
  obtain ⟨e1, e2, e3, e4, e5, e6⟩ := refresh_current h.pool.history hc2.ok hc2.backed h2
  simp only at e5
  have hexp : ∃ oe, (if op = LockupPeriod.flex then pure 0 else op.endTimestamp ts : Res Nat) = .ok oe ∧ ¬ now < oe := by
    by_cases hf : op = .flex
    · exact ⟨0, by rw [if_pos hf]; rfl, by omega⟩
    · obtain ⟨k', n', t1, t2⟩ := hx.resolve_left hf
      refine ⟨midnight ts + 86400 * n', ?_, by omega⟩
      rw [if_neg hf]
      have hbe := bod_eq_midnight ts
      have hn2 : now < 2 ^ 64 := by have := now_lt_midnight now; have hn0 : 1 ≤ n := by
                                      cases np <;> simp [terms] at hnp <;> omega
                                    omega
      cases op <;> simp only [terms, Option.some.injEq, Prod.mk.injEq, reduceCtorEq] at t1 <;>
        obtain ⟨rfl, rfl⟩ := t1 <;> refine endTimestamp_ok.mpr ⟨_, rfl, ?_, ?_⟩ <;>
        (unfold DAY; first | omega | (unfold U64; omega))
  obtain ⟨oe, hoe, hlate⟩ := hexp
  have hdel : ∃ p3 d3, Pool.withDelegate { p with totalShare := p.totalShare - b } d (Pool.delegateSub now b) = .ok (p3, d3) ∧
      (∃ t, p3 = { p with totalShare := t } ∧ t + b + (if d.isSome then b else 0) = p.totalShare) ∧
      ∀ x, d3 = some x → x.stakeFromOthers + (b + a) < 2 ^ 64 ∧ ∃ x',
        ({ x with stakeFromOthers := x.stakeFromOthers + (b + a) } : Mining).refreshRewards now p.cumulative = .ok x' := by
    cases d with
    | none =>
      refine ⟨_, none, withDelegate_none.mpr ⟨rfl, rfl⟩, ⟨_, rfl, ?_⟩, fun x hx => nomatch hx⟩
      simp only [delEarning] at hcov
      simp; omega
    | some x =>
      obtain ⟨x1, x2, x3⟩ := h.delegate x rfl
      obtain ⟨hxb, hxa⟩ := hd x rfl
      simp only [delSfo] at hfin
      obtain ⟨x', hx'⟩ := refresh_succeeds h.pool.history (x1.sfo (x.stakeFromOthers - b)) (by simp only; omega) h.bound
        (Nat.le_trans (owed_sfo_le x (Nat.sub_le _ _)) x3)
      refine ⟨_, some x', withDelegate_some.mpr ⟨x', delegateSub_ok.mpr ⟨hxb, by simp only; omega, hx', rfl⟩, rfl⟩,
        ⟨_, rfl, by simp; omega⟩, ?_⟩
      intro y hy
      cases hy
      obtain ⟨g1, g2, g3, g4, g5, g6⟩ := refresh_current h.pool.history (x1.sfo (x.stakeFromOthers - b)).ok
        (x1.sfo (x.stakeFromOthers - b)).backed hx'
      simp only at g3 g5
      refine ⟨by omega, ?_⟩
      have hcons : lastIndex 0 p.cumulative ≤ x'.index := by rw [g1.index, settled_index hs]; exact Nat.le_refl _
      refine refresh_succeeds h.pool.history ((g1.sound h.pool.history).sfo _) (by simp only; omega) h.bound ?_
      rw [owed_current h.pool.history (by exact hcons)]
      have := Nat.le_trans g2 (Nat.le_trans (owed_sfo_le x (Nat.sub_le _ _)) x3)
      rw [owed_current h.pool.history hcons] at this
      exact this
  obtain ⟨p3, d3, hw, ⟨t, rfl, ht⟩, hd3⟩ := hdel
  have hdep : ∃ r, Pool.deposit caps now { p with totalShare := t } { m1 with share := m1.share - b } (b + a) np d3 = .ok r := by
    refine deposit_succeeds hnp h2 ?_ ?_ ?_ ?_ hnow hd3
    · simp only; cases d with
      | none => simp [delEarning] at hcov ht; omega
      | some x =>
        have := (hd x rfl).1
        have hx := (h.delegate x rfl).1.backed
        have hx2 := dueBy_le_total x.diffs (midnight now)
        simp [delEarning, earningOn] at hcov ht; omega
    · exact e1.backed
    · simp only; cases d with
      | none => simp [delSfo] at hfin ht; omega
      | some x =>
        have := (hd x rfl).1
        simp [delSfo] at hfin ht; omega
    · simp only; omega
  obtain ⟨r, hdep⟩ := hdep
  refine ⟨r, ?_⟩
  unfold Pool.extend
  rw [res_bind_ok]
  refine ⟨m1, h1, ?_⟩
  have hf : LockupPeriod.flex.multiplier = 1 := rfl
  have hU : U64 = 2 ^ 64 := rfl
  by_cases hop : op = .flex
  · rw [if_pos hop] at hoe ⊢
    rw [res_bind_ok]
    refine ⟨oe, hoe, ?_⟩
    simp only [res_bind_ok, res_pure_ok, if_neg hlate, safeMul64_ok, safeSub_ok, safeAdd64_ok, Prod.exists]
    exact ⟨b, ⟨by rw [hf]; omega, by rw [hf, Nat.mul_one]⟩, _, ⟨by omega, rfl⟩, _, ⟨by omega, rfl⟩, _, _, rfl, _,
      ⟨by omega, rfl⟩, _, d3, hw, hdep⟩
  · rw [if_neg hop] at hoe ⊢
    rw [res_bind_ok]
    refine ⟨oe, hoe, ?_⟩
    simp only [res_bind_ok, res_pure_ok, if_neg hlate, safeMul64_ok, safeSub_ok, safeAdd64_ok, Prod.exists]
    exact ⟨b, ⟨by rw [hf]; omega, by rw [hf, Nat.mul_one]⟩, _, ⟨by omega, rfl⟩, _, ⟨by omega, rfl⟩, _, _, rfl, _,
      ⟨by omega, rfl⟩, _, d3, hw, hdep⟩

theorem Takes.share_le {now B : Nat} {p : Pool} {m m1 : Mining} {d : Option Mining} (h : Takes now p m d B)
    (hm : m1.share + dueBy m.diffs (midnight now) = m.share) : m1.share ≤ p.totalShare := by
  have hcov := h.cover (midnight now) (Nat.le_refl _)
  unfold totalOn earningOn at hcov
  omega

theorem Takes.diffs_le {now B : Nat} {p : Pool} {m : Mining} {d : Option Mining} (h : Takes now p m d B) :
    total p.diffs ≤ p.totalShare := by
  have := h.final; omega

theorem owed_sfo_add {cum : SMap} (hc : History cum) (x : Mining) (a : Nat) :
    owed { x with stakeFromOthers := x.stakeFromOthers + a } cum ≤ owed x cum + a * (lastIndex 0 cum - x.index) := by
  have := pending_sfo hc x a
  unfold owed
  simp only
  omega

theorem Takes.raise {now B a : Nat} {p : Pool} {m x : Mining} {d : Option Mining} (h : Takes now p m d B)
    (hs : x.share + x.stakeFromOthers + a < 2 ^ 64)
    (hi : 10 ^ 16 * B + a * (lastIndex 0 p.cumulative - x.index) ≤ 10 ^ 16 * (2 ^ 64 - 1)) (hx : d = some x) :
    ∃ x', ({ x with stakeFromOthers := x.stakeFromOthers + a } : Mining).refreshRewards now p.cumulative = .ok x' := by
  obtain ⟨x1, -, x3⟩ := h.delegate x hx
  have := owed_sfo_add h.pool.history x a
  exact refresh_succeeds (B := 2 ^ 64 - 1) h.pool.history (x1.sfo (x.stakeFromOthers + a)) (by simp only; omega) (by decide) (by omega)

theorem Spec.StakeReady.delegates {w : World} {accs : List AccountInfo} {P M A D : AccountInfo} {rest : List AccountInfo}
    {p : Pool} {m : Mining} {d : Option Mining} {owner delegate : Key}
    (h : StakeReady env w accs P M A D rest p m d owner delegate) :
    (D.key = M.key ∧ d = none) ∨ (D.key ≠ M.key ∧ ∃ x, d = some x ∧ Member env w P.key D.key x) := by
  rcases h.delegate with h | ⟨e, x, h1, h2, -⟩
  · exact Or.inl h
  · exact Or.inr ⟨e, x, h1, h2⟩

theorem Spec.RedelegateReady.news {w : World} {accs : List AccountInfo} {P M A O X Y : AccountInfo}
    {rest : List AccountInfo} {p : Pool} {m : Mining} {od nd : Option Mining} {delegate : Key}
    (h : RedelegateReady env w accs P M A O X Y rest p m od nd delegate) :
    (Y.key = M.key ∧ nd = none) ∨ (Y.key ≠ M.key ∧ ∃ x, nd = some x ∧ Member env w P.key Y.key x) := by
  rcases h.new with h | ⟨e, x, h1, h2, -⟩
  · exact Or.inl h
  · exact Or.inr ⟨e, x, h1, h2⟩

/-! ## Changes of delegate -/

theorem redelegate_exec {now : Nat} {w : World} (hw : Wf env now w) {accs : List AccountInfo} {P M A O X Y : AccountInfo}
    {rest : List AccountInfo} {p p' : Pool} {m m' : Mining} {od nd od' nd' : Option Mining} {delegate : Key} {a : Nat}
    (h : RedelegateReady env w accs P M A O X Y rest p m od nd delegate)
    (hd : p.changeDelegate now m nd od a = .ok (p', m', nd', od')) :
    ∃ w', exec env now w accs (.changeDelegate a delegate) = .ok (w', none) := by
  have gp := poolAt_good hw h.pool
  have hP0 := (hw P.key).nonzero h.pool.1
  have hnm : ∀ {k x}, Member env w P.key k x → k ≠ P.key := fun hx e => by
    have := hx.1; rw [e] at this; exact PoolAt.not_mining h.pool this
  have hMP := hnm h.mining
  obtain ⟨m1, m2⟩ := member_addr hw h.mining hP0
  have hload : PoolAndMining env w O.key M.key P.key A.key p m :=
    ⟨m1, by rw [h.mining.1.2]; rfl, Nat.le_of_eq gp.len.symm, by rw [h.pool.2]; rfl, by rw [h.owner.1]; exact m2,
      h.authority.1, h.mining.2, h.owner.1.symm⟩
  have hY : (w Y.key).owner = env.programId := by
    rcases h.new with ⟨e, -⟩ | ⟨-, x, -, hx, -⟩
    · rw [e]; exact h.mining.1.1
    · exact hx.1.1
  have hX : (w X.key).owner = env.programId := by
    rcases h.old with ⟨e, -⟩ | ⟨-, x, -, hx⟩
    · rw [e]; exact h.mining.1.1
    · exact hx.1.1
  have hnew : (M.key = Y.key ∧ nd = none) ∨ (M.key ≠ Y.key ∧ ∃ x, nd = some x ∧ DelegateOk env w Y.key delegate P.key x) := by
    rcases h.new with ⟨e, rfl⟩ | ⟨e, x, rfl, hx, rfl⟩
    · exact Or.inl ⟨e.symm, rfl⟩
    · obtain ⟨x1, x2⟩ := member_addr hw hx hP0
      exact Or.inr ⟨Ne.symm e, x, rfl, hnm hx, x1, by rw [hx.1.2]; rfl, x2⟩
  refine ⟨putDelegate env (putDelegate env (putMining env (putPool w P.key p') M.key m') X.key od') Y.key nd',
    exec_ok.mpr ⟨?_, ?_⟩⟩
  · have hacc := h.accs_eq
    subst hacc
    obtain ⟨m1, hm1⟩ : ∃ m1, m.refreshRewards now p.cumulative = .ok m1 := by
      unfold Pool.changeDelegate at hd
      obtain ⟨m1, hm1, _⟩ := res_bind_ok.mp hd
      exact ⟨m1, hm1⟩
    simp only [process, processChangeDelegate, res_bind_ok, nextWithOwner_ok, nextSigner_ok, ensure_ok, getPoolAndMining_ok,
      loadDelegate_ok, loadOldDelegate_ok, res_pure_ok, Prod.exists]
    refine ⟨_, ⟨P, _, ⟨rfl, h.pool.1⟩, M, _, ⟨rfl, h.mining.1.1⟩, A, _, ⟨rfl, h.authority.2⟩, O, _, ⟨rfl, h.owner.2⟩,
      X, _, ⟨rfl, hX⟩, Y, rest, ⟨rfl, hY⟩, (), h.different, (), hMP, p, m, hload, nd, hnew, m1, hm1, od, ?_, p', m', nd', od', hd,
      rfl⟩, rfl⟩
    rcases h.old with ⟨e, rfl⟩ | ⟨e, x, rfl, hx⟩
    · exact Or.inl ⟨e.symm, rfl⟩
    · obtain ⟨x1, x2⟩ := member_addr hw hx hP0
      exact Or.inr ⟨Ne.symm e, x, rfl, hnm hx, x1, by rw [hx.1.2]; rfl⟩
  · intro a ha hro
    have hw' := h.writable a ha
    rw [hro] at hw'
    rw [putDelegate_ne _ _ (fun e => nomatch hw' (Or.inr (Or.inr (Or.inr e)))),
      putDelegate_ne _ _ (fun e => nomatch hw' (Or.inr (Or.inr (Or.inl e)))),
      putMining_ne _ _ (fun e => nomatch hw' (Or.inr (Or.inl e))), putPool_ne _ _ (fun e => nomatch hw' (Or.inl e))]

theorem redelegate_succeeds {now a B : Nat} {p : Pool} {m : Mining} {od nd : Option Mining} (h : Takes now p m od B)
    (ho : ∀ x, od = some x → a ≤ x.stakeFromOthers) (hfit : p.totalShare + a < 2 ^ 64)
    (hn : ∀ x, nd = some x → Sound now p.cumulative x ∧ x.share + x.stakeFromOthers + a < 2 ^ 64 ∧
      10 ^ 16 * B + a * (lastIndex 0 p.cumulative - x.index) ≤ 10 ^ 16 * (2 ^ 64 - 1) ∧ owed x p.cumulative ≤ 10 ^ 16 * B) :
    ∃ r, p.changeDelegate now m nd od a = .ok r := by
  obtain ⟨m1, h1⟩ := refresh_succeeds h.pool.history h.mining h.small h.bound h.owed
  have hU : U64 = 2 ^ 64 := rfl
  have hfin := h.final
  have hsub : ∃ t od', p.withDelegate od (Pool.delegateSub now a) = .ok ({ p with totalShare := t }, od') ∧
      t ≤ p.totalShare := by
    cases od with
    | none => exact ⟨p.totalShare, none, withDelegate_none.mpr ⟨rfl, rfl⟩, Nat.le_refl _⟩
    | some x =>
      have hx := ho x rfl
      obtain ⟨x1, x2, x3⟩ := h.delegate x rfl
      obtain ⟨x', hx'⟩ := refresh_succeeds h.pool.history (x1.sfo (x.stakeFromOthers - a)) (by simp only; omega) h.bound
        (Nat.le_trans (owed_sfo_le x (Nat.sub_le _ _)) x3)
      simp only [delSfo] at hfin
      exact ⟨p.totalShare - a, some x', withDelegate_some.mpr ⟨x', delegateSub_ok.mpr ⟨hx, by omega, hx', rfl⟩, rfl⟩,
        Nat.sub_le _ _⟩
  obtain ⟨t, od', hs, ht⟩ := hsub
  have hadd : ∃ p' nd', Pool.withDelegate { p with totalShare := t } nd (Pool.delegateAdd now a) = .ok (p', nd') := by
    cases nd with
    | none => exact ⟨_, none, withDelegate_none.mpr ⟨rfl, rfl⟩⟩
    | some x =>
      obtain ⟨x1, x2, x3, x4⟩ := hn x rfl
      have := owed_sfo_add h.pool.history x a
      obtain ⟨x', hx'⟩ := refresh_succeeds (B := 2 ^ 64 - 1) h.pool.history (x1.sfo (x.stakeFromOthers + a)) (by simp only; omega)
        (by decide) (by omega)
      exact ⟨_, some x', withDelegate_some.mpr ⟨x', delegateAdd_ok.mpr ⟨by omega, by simp only; omega, hx', rfl⟩, rfl⟩⟩
  obtain ⟨p', nd', ha⟩ := hadd
  exact ⟨(p', m1, nd', od'), changeDelegate_ok.mpr ⟨h1, _, hs, ha⟩⟩

/-! ## From the books of a pool -/

theorem Books.takes {now : Nat} {w : World} {P V : Key} {p : Pool} (hw : Wf env now w) (hp : PoolAt env w P p)
    (hb : Books env now w P V p) (hB : balance w V < 2 ^ 64) {M D : Key} {m : Mining} {d : Option Mining}
    (hm : Member env w P M m) (hd : (D = M ∧ d = none) ∨ (D ≠ M ∧ ∃ x, d = some x ∧ Member env w P D x)) :
    Takes now p m d (balance w V) := by
  have hone : ∀ {k x}, Member env w P k x → owed x p.cumulative ≤ 10 ^ 16 * balance w V := by
    intro k x hx
    have h := hb.funds [k] (by simp)
    rw [sumOver_cons, show sumOver _ ([] : List Key) = 0 from rfl, ofMember_eq hx] at h
    omega
  refine ⟨(poolAt_good hw hp).ok, hb.sound _ _ hm, hb.small _ _ hm, hone hm, hB, ?_, ?_⟩
  · intro x hx
    rcases hd with ⟨-, rfl⟩ | ⟨-, y, rfl, hy⟩
    · cases hx
    · cases hx; exact ⟨hb.sound _ _ hy, hb.small _ _ hy, hone hy⟩
  · intro u hu
    rcases hd with ⟨-, rfl⟩ | ⟨hne, y, rfl, hy⟩
    · have h := hb.cover u hu [M] (by simp)
      rw [sumOver_cons, show sumOver _ ([] : List Key) = 0 from rfl, ofMember_eq hm] at h
      simp only [delEarning]; omega
    · have h := hb.cover u hu [M, D] (by simp [Ne.symm hne])
      rw [sumOver_cons, sumOver_cons, show sumOver _ ([] : List Key) = 0 from rfl, ofMember_eq hm, ofMember_eq hy] at h
      simp only [delEarning]; omega

end Verif
