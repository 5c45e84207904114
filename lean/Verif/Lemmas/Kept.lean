import Verif.Lemmas.Dividend
import Verif.Spec.Kept
/-!
A mining that has been paid and is not due anything new.
-/

namespace Verif

open Spec

variable {env : Env}

/-- Changing the delegated stake of a mining that has been credited everything visible credits nothing. -/
theorem refresh_lent {now : Nat} {cum : SMap} (hc : History cum) {x x' : Mining} (hx : MiningOk x) (n : Nat)
    (hcur : x.index = indexBefore cum now)
    (h : ({ x with stakeFromOthers := n } : Mining).refreshRewards now cum = .ok x') :
    x'.unclaimed = x.unclaimed ∧ x'.index = x.index ∧ MiningOk x' := by
  have hx1 : MiningOk ({ x with stakeFromOthers := n } : Mining) := ⟨hx.1, hx.2⟩
  obtain ⟨k1, k2⟩ := refresh_again hc hx1 hcur h
  exact ⟨k1, k2, (refresh_same hc hx1 h).2.1⟩

theorem CreditedAs.nothing {now : Nat} {cum : SMap} (hc : History cum) {m m' : Mining} (hm : MiningOk m)
    (hcur : m.index = indexBefore cum now) (h : CreditedAs now cum m m') :
    m'.unclaimed = m.unclaimed ∧ m'.index = m.index := by
  obtain ⟨m1, h1, h2, h3⟩ := h
  obtain ⟨k1, k2⟩ := refresh_again hc hm hcur h1
  exact ⟨h2.trans k1, h3.trans k2⟩

/-- The delegate of a stake instruction that has been credited everything visible. -/
theorem StakeOp.lent {caps : Caps} {now : Nat} {p p' : Pool} {m m' x x' : Mining} {i : Ix} (hp : PoolOk now p)
    (hm : MiningOk m) (hx : MiningOk x) (h : StakeOp caps now p m (some x) p' m' (some x') i)
    (hcur : x.index = indexBefore p.cumulative now) : x'.unclaimed = x.unclaimed ∧ x'.index = x.index := by
  cases i with
  | depositMining a l o dl =>
    obtain ⟨y, q, q', e1, e2, e3⟩ := (deposit_credit hp hm h).2 x rfl
    cases e1
    rw [delegateAdd_ok, e2] at e3
    obtain ⟨g1, g2, -⟩ := refresh_lent hp.history hx _ hcur e3.2.2.1
    exact ⟨g1, g2⟩
  | withdrawMining a o dl =>
    obtain ⟨y, q, q', e1, e2, e3⟩ := (withdraw_credit hp h).2 x rfl
    cases e1
    rw [delegateSub_ok, e2] at e3
    obtain ⟨g1, g2, -⟩ := refresh_lent hp.history hx _ hcur e3.2.2.1
    exact ⟨g1, g2⟩
  | extendStake ol nl ts b a o dl =>
    obtain ⟨x1, y, q, q', r, r', e1, e2, e3, e4, e5⟩ := (extend_credit hp hm (by rintro _ ⟨⟩; exact hx) h).2 x rfl
    cases e1
    rw [delegateSub_ok, e2] at e4
    rw [delegateAdd_ok, e3] at e5
    obtain ⟨g1, g2, g3⟩ := refresh_lent hp.history hx _ hcur e4.2.2.1
    obtain ⟨k1, k2, -⟩ := refresh_lent hp.history g3 _ (g2.trans hcur) e5.2.2.1
    exact ⟨k1.trans g1, k2.trans g2⟩
  | slash o n mu ex => obtain ⟨-, h, -⟩ := h; cases h
  | _ => exact h.elim

/-- The pool a checked delegate belongs to. -/
theorem DelChecked.inPool (hi : env.PdaInjective) {w : World} {P D : Key} {x : Mining} (h : DelChecked env w P D x)
    (ht : x.accountType = 2) : x.rewardPool = P := by
  obtain ⟨-, ⟨o, h1⟩, ⟨-, h2⟩ | h2⟩ := h
  · exact (hi.mining _ _ _ _ _ _ _ h2.addr h1).2.1
  · rw [h2.type] at ht; cases ht

/-- One instruction: a mining without unclaimed tokens that has been credited everything visible stays so. -/
theorem Step.kept (hi : env.PdaInjective) {now : Nat} {w w' : World} {accs : List AccountInfo} {i : Ix} {ret : Option Nat}
    (h : Step env now w w' accs i ret) {P k : Key} {m : Mining} {p : Pool} (hm : MiningAt env w k m) (ht : m.accountType = 2)
    (hpool : m.rewardPool = P) (hp : PoolAt env w P p) (hclose : miningArg accs i = some k → i ≠ .closeMining)
    (hold : oldDelegateArg accs i = some k → poolArg accs i = some P) (hcur : m.index = indexBefore p.cumulative now)
    (hz : m.unclaimed = 0) :
    ∃ m', MiningAt env w' k m' ∧ m'.accountType = 2 ∧ m'.rewardPool = P ∧ m'.index = m.index ∧ m'.unclaimed = 0 := by
  have tok : ∀ j, (w j).owner = env.tokenProgram → k ≠ j := by
    rintro j hj rfl; exact env.program_ne_token (hm.1.symm.trans hj)
  have sys : ∀ j, (w j).owner = env.systemProgram → k ≠ j := by
    rintro j hj rfl; exact env.program_ne_system (hm.1.symm.trans hj)
  have idle : w' k = w k → ∃ m', MiningAt env w' k m' ∧ m'.accountType = 2 ∧ m'.rewardPool = P ∧ m'.index = m.index ∧
      m'.unclaimed = 0 := fun e => ⟨m, (miningAt_congr e).mpr hm, ht, hpool, rfl, hz⟩
  cases h with
  | @stake _ P1 M A D q q' m1 m1' d d' accs_eq op chk del quiet same sfo ok' sameDel eff shell =>
    rcases eff.minings hm with ⟨rfl, rfl, h1⟩ | ⟨h1, h0, rfl, y', rfl, h2⟩ | ⟨n1, n2, h1⟩
    · obtain rfl : P1.key = P := chk.inPool.symm.trans hpool
      obtain rfl := PoolAt.unique hp eff.pool
      obtain ⟨g1, g2⟩ := CreditedAs.nothing chk.good.ok.history chk.miningOk hcur
        (op.credit chk.good.ok chk.miningOk (fun x hx => (del x hx).ok))
      exact ⟨_, h1, same.accountType.trans ht, same.rewardPool.trans hpool, g2, g1.trans hz⟩
    · obtain rfl : P1.key = P := ((del _ rfl).inPool hi ht).symm.trans hpool
      obtain rfl := PoolAt.unique hp eff.pool
      obtain ⟨g1, g2⟩ := op.lent chk.good.ok chk.miningOk (del _ rfl).ok hcur
      exact ⟨_, h2, sameDel.1.accountType.trans ht, sameDel.1.rewardPool.trans hpool, g2, g1.trans hz⟩
    · exact idle (eff.frame k (by rintro rfl; exact PoolAt.not_mining eff.pool hm) n1 n2)
  | @redelegate a nd P1 M A O Old New rest q q' m1 m1' od od' dn dn' accs_eq signed op chk newDel oldOk oldAt ne quiet same sfo
      ok' sameNew sameOld neP eff shell =>
    have a1 : poolArg accs (.changeDelegate a nd) = some P1.key := by rw [accs_eq]; rfl
    have a4 : oldDelegateArg accs (.changeDelegate a nd) = some Old.key := by rw [accs_eq]; rfl
    obtain ⟨hown, hod, hdn⟩ := redelegate_credit op
    by_cases hk : k = M.key
    · subst hk
      obtain rfl := MiningAt.unique hm eff.mining
      obtain rfl : P1.key = P := chk.inPool.symm.trans hpool
      obtain rfl := PoolAt.unique hp eff.pool
      obtain ⟨g1, g2⟩ := hown.nothing chk.good.ok.history chk.miningOk hcur
      exact ⟨_, eff.mining', same.accountType.trans ht, same.rewardPool.trans hpool, g2, g1.trans hz⟩
    · by_cases hk2 : k = Old.key
      · subst hk2
        obtain rfl : P1.key = P := Option.some.inj (a1.symm.trans (hold a4))
        obtain rfl := PoolAt.unique hp eff.pool
        obtain ⟨rfl, x', rfl, h4⟩ := eff.old.at hk hm
        obtain ⟨y, r, r', e1, e2, e3⟩ := hod _ rfl
        cases e1
        rw [delegateSub_ok, e2] at e3
        obtain ⟨g1, g2, -⟩ := refresh_lent chk.good.ok.history (oldOk _ rfl) _ hcur e3.2.2.1
        exact ⟨_, h4, sameOld.1.accountType.trans ht, sameOld.1.rewardPool.trans hpool, g2, g1.trans hz⟩
      · by_cases hk3 : k = New.key
        · subst hk3
          obtain ⟨rfl, x', rfl, h4⟩ := eff.new.at hk hm
          obtain rfl : P1.key = P := ((newDel _ rfl).inPool hi ht).symm.trans hpool
          obtain rfl := PoolAt.unique hp eff.pool
          obtain ⟨y, r, r', e1, e2, e3⟩ := hdn _ rfl
          cases e1
          rw [delegateAdd_ok, e2] at e3
          obtain ⟨g1, g2, -⟩ := refresh_lent chk.good.ok.history (newDel _ rfl).ok _ hcur e3.2.2.1
          exact ⟨_, h4, sameNew.1.accountType.trans ht, sameNew.1.rewardPool.trans hpool, g2, g1.trans hz⟩
        · exact idle (eff.frame k (by rintro rfl; exact PoolAt.not_mining eff.pool hm) hk hk2 hk3)
  | @decrease o n A P1 M rest q m1 m1' accs_eq chk pool op mining mining' same ok' sfo frame shell =>
    by_cases hk : k = M.key
    · subst hk
      obtain rfl := MiningAt.unique hm mining
      obtain ⟨e1, e2⟩ : m1'.index = m.index ∧ m1'.unclaimed = m.unclaimed := by
        unfold Mining.decreaseRewards at op
        split at op
        · cases op; exact ⟨rfl, rfl⟩
        · simp only [res_bind_ok, res_pure_ok] at op
          obtain ⟨-, -, sh, -, rfl⟩ := op
          exact ⟨rfl, rfl⟩
      exact ⟨_, mining', same.accountType.trans ht, same.rewardPool.trans hpool, e1, e2.trans hz⟩
    · exact idle (frame k hk)
  | @claim P1 T V M O A U K rest q m1 m2 n accs_eq signedO signedA eff =>
    obtain ⟨t, htok, -⟩ := eff.userTok
    by_cases hk : k = M.key
    · subst hk
      obtain rfl := MiningAt.unique hm eff.mining
      obtain rfl : P1.key = P := eff.inPool.symm.trans hpool
      obtain rfl := PoolAt.unique hp eff.pool
      obtain ⟨g1, g2⟩ := refresh_again eff.good.ok.history eff.miningOk hcur eff.refreshed
      obtain ⟨s, -⟩ := refresh_same eff.good.ok.history eff.miningOk eff.refreshed
      exact ⟨_, eff.mining', s.accountType.trans ht, s.rewardPool.trans hpool, g2, rfl⟩
    · exact idle (eff.frame k hk (tok _ eff.vaultTok) (tok _ htok.1))
  | distribute _ _ _ _ pool _ _ _ _ _ frame =>
    exact idle (frame k (by rintro rfl; exact PoolAt.not_mining pool hm))
  | @fill r e P1 T V F S K rest q w1 accs_eq signed auth good pool vault nonzero future later endBound bound pool' w1_frame
      transfer frame neS neV shell =>
    obtain ⟨t, t', ht1, -⟩ := transfer.srcTok
    obtain ⟨u, u', hu, -⟩ := transfer.dstTok
    refine idle (frame k (by rintro rfl; exact PoolAt.not_mining pool hm) (tok _ ?_) (tok _ ?_))
    · rw [← w1_frame _ neS]; exact ht1.1
    · rw [← w1_frame _ neV]; exact hu.1
  | @close M O G A P1 rest q m1 m2 accs_eq signedO signedA good pool auth mining init miningOk owner refreshed sfo paid target
      closed credited frame ne neG =>
    by_cases hk : k = M.key
    · exact absurd rfl (hclose (by rw [accs_eq, hk]; rfl))
    · exact idle (frame k hk (sys _ target))
  | @initPool f d P1 T V Y A R K S rest bump accs_eq signedY signedA owned len fresh notPda vault pool' vaultBefore vault'
      payer payer' frame =>
    refine idle (frame k ?_ (sys _ vaultBefore.2.2) (sys _ payer.2.1))
    rintro rfl
    rcases fresh with h1 | ⟨m', h1, h2⟩
    · rw [hm.2] at h1; cases h1
    · rw [hm.2] at h1; cases h1; exact absurd (ht.symm.trans h2.type) (by decide)
  | initMining _ _ _ _ before _ payer _ frame =>
    exact idle (frame k (sys _ before.2.2) (sys _ payer.2.1))

/-- The visible index never falls. -/
theorem PoolEvent.visible {s : Chain} {P : Key} {p p1 : Pool} {e : Event} (hw : Wf env s.now s.world)
    (hp : PoolAt env s.world P p) (h : PoolEvent env s P p e p1) :
    indexBefore p.cumulative s.now ≤ indexBefore p1.cumulative (s.apply env e).now := by
  have good := poolAt_good hw hp
  have hn : s.now ≤ (s.apply env e).now := by
    cases e with
    | ix accs i => exact Nat.le_of_eq (by simp only [Chain.apply]; split <;> rfl)
    | tick d => exact Nat.le_add_right _ _
    | gc j => exact Nat.le_refl _
    | ext w => exact Nat.le_refl _
  cases h with
  | same => exact indexBefore_mono good.ok.history hn
  | ix ok change =>
    obtain ⟨h1, h2⟩ := change.history good.ok
    refine Nat.le_trans (indexBefore_mono good.ok.history hn) ?_
    rcases h1 with h1 | ⟨-, h1⟩
    · rw [h1]; exact Nat.le_refl _
    · rw [h1]
      exact indexBefore_append (Nat.le_trans (lastIndex_le (Nat.zero_le _) good.ok.index) h2) good.ok.history _

theorem Spec.KeptEvent.clean {P k : Key} {s : Chain} {e : Event} (h : KeptEvent env P k s e) : CleanEvent env s e := h.1

theorem Spec.KeptEvent.leaves {P k : Key} {s : Chain} {e : Event} (h : KeptEvent env P k s e) : Leaves P e ∧ Leaves k e := by
  constructor <;> rintro j rfl
  · exact h.2.1
  · exact h.2.2

/-- The pool stays where it is, and its visible index never falls. -/
theorem runs_visible {P k : Key} {s s' : Chain} {es : List Event} (hr : RunsWith env (KeptEvent env P k) s es s') :
    Wf env s.now s.world → ∀ {p}, PoolAt env s.world P p → ∀ {p'}, PoolAt env s'.world P p' →
    indexBefore p.cumulative s.now ≤ indexBefore p'.cumulative s'.now := by
  induction hr with
  | nil s =>
    intro _ p hp p' hp'
    rw [PoolAt.unique hp hp']; exact Nat.le_refl _
  | cons hv hc _ ih =>
    intro hw p hp p' hp'
    obtain ⟨p1, h1, h3⟩ := pool_stays hw hv hc.1 hp hc.leaves.1
    exact Nat.le_trans (h3.visible hw hp) (ih (wf_apply hw hv hc.1) h1 hp')

/-- One event: a mining without unclaimed tokens that has been credited everything visible stays so. -/
theorem event_kept (hi : env.PdaInjective) {P k : Key} {s : Chain} {e : Event} (hw : Wf env s.now s.world) (hv : e.Valid env s)
    (hc : KeptEvent env P k s e) {m : Mining} {p : Pool} (hm : MiningAt env s.world k m) (ht : m.accountType = 2)
    (hpool : m.rewardPool = P) (hp : PoolAt env s.world P p) (hcur : m.index = indexBefore p.cumulative s.now)
    (hz : m.unclaimed = 0) :
    ∃ m', MiningAt env (s.apply env e).world k m' ∧ m'.accountType = 2 ∧ m'.rewardPool = P ∧ m'.index = m.index ∧
      m'.unclaimed = 0 := by
  cases e with
  | ix accs i =>
    cases hx : exec env s.now s.world accs i with
    | error e => rw [apply_ix_error hx]; exact ⟨m, hm, ht, hpool, rfl, hz⟩
    | ok r =>
      obtain ⟨w', ret⟩ := r
      rw [apply_ix_ok hx]
      exact (step_of_exec hw hv hc.1 hx).kept hi hm ht hpool hp hc.2.1 hc.2.2 hcur hz
  | tick d => exact ⟨m, hm, ht, hpool, rfl, hz⟩
  | gc j =>
    have e1 : (s.apply env (.gc j)).world k = s.world k := world_set_ne _ _ (Ne.symm hc.2.2)
    exact ⟨m, (miningAt_congr e1).mpr hm, ht, hpool, rfl, hz⟩
  | ext w' =>
    obtain ⟨e1, -, e3, e4⟩ := hv.program_owned k hm.1
    exact ⟨m, ⟨e1.trans hm.1, e3.trans hm.2⟩, ht, hpool, rfl, hz⟩

/-- As long as nothing new becomes visible, nothing is credited. -/
theorem runs_kept (hi : env.PdaInjective) {P k : Key} {s s' : Chain} {es : List Event}
    (hr : RunsWith env (KeptEvent env P k) s es s') :
    Wf env s.now s.world → ∀ {m}, MiningAt env s.world k m → m.accountType = 2 → m.rewardPool = P →
    ∀ {p}, PoolAt env s.world P p → m.index = indexBefore p.cumulative s.now → m.unclaimed = 0 →
    ∀ {p'}, PoolAt env s'.world P p' → indexBefore p'.cumulative s'.now = m.index →
    ∃ m', MiningAt env s'.world k m' ∧ m'.index = m.index ∧ m'.unclaimed = 0 := by
  induction hr with
  | nil s =>
    intro _ m hm _ _ p _ _ hz p' _ _
    exact ⟨m, hm, rfl, hz⟩
  | cons hv hc hr ih =>
    intro hw m hm ht hpool p hp hcur hz p' hp' hsame
    have hw' := wf_apply hw hv hc.1
    obtain ⟨p1, h1, h3⟩ := pool_stays hw hv hc.1 hp hc.leaves.1
    obtain ⟨m1, g1, g2, g3, g4, g5⟩ := event_kept hi hw hv hc hm ht hpool hp hcur hz
    have a1 := h3.visible hw hp
    have a2 := runs_visible hr hw' h1 hp'
    obtain ⟨m2, j1, j2, j3⟩ := ih hw' g1 g2 g3 h1 (by omega) g5 hp' (by omega)
    exact ⟨m2, j1, j2.trans g4, j3⟩

end Verif
