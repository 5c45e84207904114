import Verif.Lemmas.Exact
import Verif.Lemmas.Live2
/-!
Exactly when instructions with the right accounts succeed: the checks on accounts pass, so everything depends on the
operation itself.
-/

namespace Verif

open Spec

variable {env : Env}

theorem view_pool {w : World} {k : Key} {p q : Pool} (h : PoolAt env w k p) (hv : viewPool env (w k).content = some q) :
    q = p := by
  rw [h.2] at hv; exact (Option.some.inj hv).symm

theorem view_mining {w : World} {k : Key} {m x : Mining} (h : MiningAt env w k m)
    (hv : viewMining env (w k).content = some x) : x = m := by
  rw [h.2] at hv; exact (Option.some.inj hv).symm

theorem StakeCall.same {w : World} {accs : List AccountInfo} {P M A D P' M' A' D' : AccountInfo} {rest : List AccountInfo}
    {p q : Pool} {m x : Mining} {d e : Option Mining} {owner delegate : Key}
    (h : StakeReady env w accs P M A D rest p m d owner delegate)
    (hc : StakeCall env w accs owner delegate P' M' A' D' q x e) : q = p ∧ x = m ∧ e = d := by
  obtain ⟨r, hr⟩ := hc.accs_eq
  have := h.accs_eq.symm.trans hr
  simp only [List.cons.injEq] at this
  obtain ⟨rfl, rfl, rfl, rfl, rfl⟩ := this
  refine ⟨view_pool h.pool hc.loaded.pview, view_mining h.mining.1 hc.loaded.mview, ?_⟩
  rcases h.delegate with ⟨e1, rfl⟩ | ⟨e1, y, rfl, hy, -⟩ <;> rcases hc.delegate with ⟨f1, rfl⟩ | ⟨f1, z, rfl, hz⟩
  · rfl
  · exact absurd e1.symm f1
  · exact absurd f1.symm e1
  · rw [view_mining hy.1 hz.view]

theorem exec_none {now : Nat} {w w' : World} {accs : List AccountInfo} {i : Ix}
    (h : exec env now w accs i = .ok (w', none)) : process env now w accs i = .ok (w', none) := (exec_ok.mp h).1

theorem withdraw_exec_iff {now : Nat} {w : World} (hw : Wf env now w) {accs : List AccountInfo} {P M A D : AccountInfo}
    {rest : List AccountInfo} {p : Pool} {m : Mining} {d : Option Mining} {owner delegate : Key} {a : Nat}
    (h : StakeReady env w accs P M A D rest p m d owner delegate) :
    (∃ w', exec env now w accs (.withdrawMining a owner delegate) = .ok (w', none)) ↔
      ∃ r, p.withdraw now m a d = .ok r := by
  constructor
  · rintro ⟨w', hx⟩
    have := exec_none hx
    simp only [process, res_bind_ok, res_pure_ok, Prod.mk.injEq] at this
    obtain ⟨w1, h1, -⟩ := this
    obtain ⟨_, _, _, _, q, x, e, p', m', d', hc, h2, -⟩ := processWithdrawMining_ok h1
    obtain ⟨rfl, rfl, rfl⟩ := StakeCall.same h hc
    exact ⟨_, h2⟩
  · rintro ⟨⟨p', m', d'⟩, hd⟩; exact ⟨_, withdraw_exec hw h hd⟩

theorem deposit_exec_iff {now : Nat} {w : World} (hw : Wf env now w) {accs : List AccountInfo} {P M A D : AccountInfo}
    {rest : List AccountInfo} {p : Pool} {m : Mining} {d : Option Mining} {owner delegate : Key} {a : Nat}
    {per : LockupPeriod} (h : StakeReady env w accs P M A D rest p m d owner delegate) :
    (∃ w', exec env now w accs (.depositMining a per owner delegate) = .ok (w', none)) ↔
      ∃ r, p.deposit env.caps now m a per d = .ok r := by
  constructor
  · rintro ⟨w', hx⟩
    have := exec_none hx
    simp only [process, res_bind_ok, res_pure_ok, Prod.mk.injEq] at this
    obtain ⟨w1, h1, -⟩ := this
    obtain ⟨_, _, _, _, q, x, e, p', m', d', hc, h2, -⟩ := processDepositMining_ok h1
    obtain ⟨rfl, rfl, rfl⟩ := StakeCall.same h hc
    exact ⟨_, h2⟩
  · rintro ⟨⟨p', m', d'⟩, hd⟩; exact ⟨_, deposit_exec hw h hd⟩

theorem extend_exec_iff {now : Nat} {w : World} (hw : Wf env now w) {accs : List AccountInfo} {P M A D : AccountInfo}
    {rest : List AccountInfo} {p : Pool} {m : Mining} {d : Option Mining} {owner delegate : Key}
    {op np : LockupPeriod} {ts b a : Nat} (h : StakeReady env w accs P M A D rest p m d owner delegate) :
    (∃ w', exec env now w accs (.extendStake op np ts b a owner delegate) = .ok (w', none)) ↔
      ∃ r, p.extend env.caps now m op np ts b a d = .ok r := by
  constructor
  · rintro ⟨w', hx⟩
    have := exec_none hx
    simp only [process, res_bind_ok, res_pure_ok, Prod.mk.injEq] at this
    obtain ⟨w1, h1, -⟩ := this
    obtain ⟨_, _, _, _, q, x, e, p', m', d', hc, h2, -⟩ := processExtendStake_ok h1
    obtain ⟨rfl, rfl, rfl⟩ := StakeCall.same h hc
    exact ⟨_, h2⟩
  · rintro ⟨⟨p', m', d'⟩, hd⟩; exact ⟨_, extend_exec hw h hd⟩

theorem slash_exec_iff {now : Nat} {w : World} (hw : Wf env now w) {accs : List AccountInfo} {A P M : AccountInfo}
    {rest : List AccountInfo} {p : Pool} {m : Mining} {owner : Key} {n mu : Nat} {ex : Option Nat}
    (h : SlashReady env w accs A P M rest p m owner) :
    (∃ w', exec env now w accs (.slash owner n mu ex) = .ok (w', none)) ↔ ∃ r, p.slash now m n mu ex = .ok r := by
  constructor
  · rintro ⟨w', hx⟩
    have := exec_none hx
    simp only [process, res_bind_ok, res_pure_ok, Prod.mk.injEq] at this
    obtain ⟨w1, h1, -⟩ := this
    obtain ⟨_, _, _, _, q, x, p', m', hacc, -, -, -, -, hl, h2, -⟩ := processSlash_ok h1
    have := h.accs_eq.symm.trans hacc
    simp only [List.cons.injEq] at this
    obtain ⟨rfl, rfl, rfl, rfl⟩ := this
    obtain rfl := view_pool h.pool hl.pview
    obtain rfl := view_mining h.mining.1 hl.mview
    exact ⟨_, h2⟩
  · rintro ⟨⟨p', m'⟩, hd⟩; exact ⟨_, slash_exec hw h hd⟩

theorem decrease_exec_iff {now : Nat} {w : World} (hw : Wf env now w) {accs : List AccountInfo} {A P M : AccountInfo}
    {rest : List AccountInfo} {p : Pool} {m : Mining} {owner : Key} {n : Nat}
    (h : DecreaseReady env w accs A P M rest p m owner) :
    (∃ w', exec env now w accs (.decreaseRewards owner n) = .ok (w', none)) ↔ ∃ r, m.decreaseRewards n = .ok r := by
  constructor
  · rintro ⟨w', hx⟩
    have := exec_none hx
    simp only [process, res_bind_ok, res_pure_ok, Prod.mk.injEq] at this
    obtain ⟨w1, h1, -⟩ := this
    obtain ⟨_, _, _, _, q, x, m', hacc, -, -, -, -, hl, h2, -⟩ := processDecreaseRewards_ok h1
    have := h.accs_eq.symm.trans hacc
    simp only [List.cons.injEq] at this
    obtain ⟨rfl, rfl, rfl, rfl⟩ := this
    obtain rfl := view_mining h.mining.1 hl.mview
    exact ⟨_, h2⟩
  · rintro ⟨m', hd⟩
    have hP0 := (hw P.key).nonzero h.pool.1
    have gp := poolAt_good hw h.pool
    have hMP : M.key ≠ P.key := by
      intro e; have := h.mining.1; rw [e] at this; exact PoolAt.not_mining h.pool this
    obtain ⟨m1, m2⟩ := member_addr hw h.mining hP0
    have hacc := h.accs_eq
    refine ⟨putMining env w M.key m', exec_ok.mpr ⟨?_, ?_⟩⟩
    · subst hacc
      simp only [process, processDecreaseRewards, res_bind_ok, nextWithOwner_ok, nextSigner_ok, ensure_ok,
        getPoolAndMining_ok, res_pure_ok, Prod.exists]
      exact ⟨_, ⟨A, _, ⟨rfl, h.authority.2⟩, P, _, ⟨rfl, h.pool.1⟩, M, rest, ⟨rfl, h.mining.1.1⟩, (), hMP, p, m,
        ⟨m1, by rw [h.mining.1.2]; rfl, Nat.le_of_eq gp.len.symm, by rw [h.pool.2]; rfl, by rw [h.owner]; exact m2,
          h.authority.1, h.mining.2, h.owner.symm⟩, m', hd, rfl⟩, rfl⟩
    · intro a ha hro
      rw [putMining_ne _ _ (fun e => ?_)]
      have := h.writable a ha e; rw [hro] at this; cases this

theorem distribute_exec_iff {now : Nat} {w : World} (hw : Wf env now w) {accs : List AccountInfo} {P B : AccountInfo}
    {rest : List AccountInfo} {p : Pool} (h : DistributeReady env w accs P B rest p) (ht : p.tokensAvailable < 2 ^ 64) :
    (∃ w', exec env now w accs .distributeRewards = .ok (w', none)) ↔
      ∃ r, p.distribute env.caps now (dailyAmount p.tokensAvailable p.distributionEndsAt now) = .ok r := by
  constructor
  · rintro ⟨w', hx⟩
    have := exec_none hx
    simp only [process, res_bind_ok, res_pure_ok, Prod.mk.injEq] at this
    obtain ⟨w1, h1, -⟩ := this
    obtain ⟨_, _, _, q, p', r, hacc, -, -, -, hv, hr, -, h2, -⟩ := processDistributeRewards_ok h1
    have := h.accs_eq.symm.trans hacc
    simp only [List.cons.injEq] at this
    obtain ⟨rfl, rfl, rfl⟩ := this
    obtain rfl := view_pool h.pool hv
    rw [rewardsToDistribute_eq now (by unfold U64; omega)] at hr
    cases hr
    exact ⟨_, h2⟩
  · rintro ⟨p', hd⟩; exact ⟨_, distribute_exec hw h ht hd⟩

theorem redelegate_exec_iff {now : Nat} {w : World} (hw : Wf env now w) {accs : List AccountInfo}
    {P M A O X Y : AccountInfo} {rest : List AccountInfo} {p : Pool} {m : Mining} {od nd : Option Mining} {delegate : Key}
    {a : Nat} (h : RedelegateReady env w accs P M A O X Y rest p m od nd delegate) :
    (∃ w', exec env now w accs (.changeDelegate a delegate) = .ok (w', none)) ↔
      ∃ r, p.changeDelegate now m nd od a = .ok r := by
  constructor
  · rintro ⟨w', hx⟩
    have := exec_none hx
    simp only [process, res_bind_ok, res_pure_ok, Prod.mk.injEq] at this
    obtain ⟨w1, h1, -⟩ := this
    obtain ⟨_, _, _, _, _, _, _, q, x, n', o', p', m', nd', od', hacc, -, -, -, -, -, -, -, -, hl, hn, ho, h2, -⟩ :=
      processChangeDelegate_ok h1
    have := h.accs_eq.symm.trans hacc
    simp only [List.cons.injEq] at this
    obtain ⟨rfl, rfl, rfl, rfl, rfl, rfl, rfl⟩ := this
    obtain rfl := view_pool h.pool hl.pview
    obtain rfl := view_mining h.mining.1 hl.mview
    have e1 : n' = nd := by
      rcases h.new with ⟨e1, rfl⟩ | ⟨e1, y, rfl, hy, -⟩ <;> rcases hn with ⟨f1, rfl⟩ | ⟨f1, z, rfl, hz⟩
      · rfl
      · exact absurd e1.symm f1
      · exact absurd f1.symm e1
      · rw [view_mining hy.1 hz.view]
    have e2 : o' = od := by
      rcases h.old with ⟨e1, rfl⟩ | ⟨e1, y, rfl, hy⟩ <;> rcases ho with ⟨f1, rfl⟩ | ⟨f1, z, rfl, -, -, hz⟩
      · rfl
      · exact absurd e1.symm f1
      · exact absurd f1.symm e1
      · rw [view_mining hy.1 hz]
    subst e1 e2
    exact ⟨_, h2⟩
  · rintro ⟨⟨p', m', nd', od'⟩, hd⟩; exact redelegate_exec hw h hd

theorem claim_exec_iff {now : Nat} {w : World} (hw : Wf env now w) {accs : List AccountInfo}
    {P T V M O A U K : AccountInfo} {rest : List AccountInfo} {p : Pool} {m : Mining} {t u : TokenAcc} {n : Nat}
    (h : ClaimReady env w accs P T V M O A U K rest p m t u) :
    (∃ w', exec env now w accs .claim = .ok (w', some n)) ↔
      ∃ m1, m.refreshRewards now p.cumulative = .ok m1 ∧ m1.unclaimed ≤ t.amount ∧ n = m1.unclaimed := by
  constructor
  · rintro ⟨w', hx⟩
    have := (exec_ok.mp hx).1
    simp only [process, res_bind_ok, res_pure_ok, Prod.mk.injEq, Prod.exists, Option.some.injEq] at this
    obtain ⟨w1, n', h1, -, rfl⟩ := this
    obtain ⟨_, _, _, _, _, _, _, _, _, ut, q, x, m1, hacc, -, -, -, b4, -, -, -, -, -, -, -, hv, -, -, -, hm, -, -, -, hr, hn,
      hl⟩ := processClaim_ok h1
    have := h.accs_eq.symm.trans hacc
    simp only [List.cons.injEq] at this
    obtain ⟨rfl, rfl, rfl, rfl, rfl, rfl, rfl, rfl, rfl⟩ := this
    obtain rfl := view_pool h.pool hv
    obtain rfl := view_mining h.mining.1 hm
    refine ⟨m1, hr, ?_, hn⟩
    rcases hl with ⟨-, hl⟩ | ⟨h0, -⟩
    · obtain ⟨s, _, _, -, -, -, -, hs, -, -, -, -, hle, -⟩ := splTransfer_ok hl
      rw [putMining_ne _ _ (by
        intro e
        exact env.program_ne_token ((b4.symm.trans (by rw [e])).trans h.vault.2.1)), h.vault.2.2] at hs
      cases hs
      exact hle
    · omega
  · rintro ⟨m1, h1, h2, rfl⟩; exact claim_succeeds hw h h1 h2

theorem close_exec_iff {now : Nat} {w : World} (hw : Wf env now w) {accs : List AccountInfo}
    {M O G A P : AccountInfo} {rest : List AccountInfo} {p : Pool} {m : Mining}
    (h : CloseReady env w accs M O G A P rest p m) :
    (∃ w', exec env now w accs .closeMining = .ok (w', none)) ↔
      ∃ m1, m.refreshRewards now p.cumulative = .ok m1 ∧ m1.stakeFromOthers = 0 ∧ m1.unclaimed = 0 := by
  constructor
  · rintro ⟨w', hx⟩
    have := exec_none hx
    simp only [process, res_bind_ok, res_pure_ok, Prod.mk.injEq] at this
    obtain ⟨w1, h1, -⟩ := this
    obtain ⟨_, _, _, _, _, _, q, x, m1, hacc, -, -, -, -, -, -, hv, -, -, -, hm, -, hr, h2, h3, -⟩ := processCloseMining_ok h1
    have := h.accs_eq.symm.trans hacc
    simp only [List.cons.injEq] at this
    obtain ⟨rfl, rfl, rfl, rfl, rfl, rfl⟩ := this
    obtain rfl := view_pool h.pool hv
    obtain rfl := view_mining h.mining.1 hm
    exact ⟨m1, hr, h2, h3⟩
  · rintro ⟨m1, h1, h2, h3⟩; exact close_exec hw h h1 h2 h3

theorem fill_exec_iff {now : Nat} {w : World} (hw : Wf env now w) {accs : List AccountInfo}
    {P T V F S K : AccountInfo} {rest : List AccountInfo} {p : Pool} {t u : TokenAcc} {r e : Nat} (he : e < 2 ^ 64)
    (h : FillReady env w accs P T V F S K rest p t u) :
    (∃ w', exec env now w accs (.fillVault r e) = .ok (w', none)) ↔ FillOk now p t r e := by
  constructor
  · rintro ⟨w', hx⟩
    have := exec_none hx
    simp only [process, res_bind_ok, res_pure_ok, Prod.mk.injEq] at this
    obtain ⟨w1, h1, -⟩ := this
    obtain ⟨_, _, _, _, _, _, _, q, hacc, -, -, -, -, -, -, h2, -, hv, -, -, h3, h4, -, h5, ⟨h6, -⟩, h7⟩ :=
      processFillVault_ok h1
    have := h.accs_eq.symm.trans hacc
    simp only [List.cons.injEq] at this
    obtain ⟨rfl, rfl, rfl, rfl, rfl, rfl, rfl⟩ := this
    obtain rfl := view_pool h.pool hv
    rw [bod_eq_midnight] at h3 h4
    rw [bod_eq_midnight] at h3
    obtain ⟨s, _, _, -, -, -, -, hs, -, -, -, -, hle, -⟩ := splTransfer_ok h7
    rw [putPool_ne _ _ h6, h.source.1.2] at hs
    cases hs
    exact ⟨by omega, hle, h3, h4, h5⟩
  · rintro ⟨h0, hn, h1, h2, h3⟩; exact fill_succeeds hw h h0 hn he h1 h2 h3

end Verif
