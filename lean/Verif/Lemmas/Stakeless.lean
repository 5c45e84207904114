import Verif.Lemmas.Credited
import Verif.Spec.Stakeless
/-!
A mining without stake earns nothing.
-/

namespace Verif

open Spec

variable {env : Env}

theorem Upd.bare {cum : SMap} {date u i u' : Nat} (h : Upd cum date 0 u i u') : u' = u := by
  rw [h.2.2.2.2]; simp

theorem RunOk.bare {cum : SMap} {b t : Nat} {D : List (Nat × Nat)} {u i sh' u' : Nat}
    (h : RunOk cum b t D 0 u i sh' u') : u' = u := by
  induction D generalizing u i with
  | nil => exact h.1.bare
  | cons a rest ih =>
    obtain ⟨e, v⟩ := a
    rw [RunOk] at h
    split at h
    · exact h.1.bare
    · obtain ⟨u1, h1, h2, h3⟩ := h
      rw [Nat.zero_sub] at h3
      exact (ih h3).trans h1.bare

/-- Bringing a mining without stake up to date credits nothing. -/
theorem refresh_bare {cum : SMap} (hc : History cum) {now : Nat} {m m' : Mining} (hm : MiningOk m) (h0 : NoStake m)
    (h : m.refreshRewards now cum = .ok m') : m'.unclaimed = m.unclaimed := by
  obtain ⟨-, sh, u, h1, -, rfl⟩ := (refresh_iff hc hm.sorted).mp h
  rw [h0.1, h0.2] at h1
  exact h1.bare

theorem CreditedAs.bare {now : Nat} {cum : SMap} (hc : History cum) {m m' : Mining} (hm : MiningOk m) (h0 : NoStake m)
    (h : CreditedAs now cum m m') : m'.unclaimed = m.unclaimed := by
  obtain ⟨m1, h1, h2, -⟩ := h
  rw [h2]; exact refresh_bare hc hm h0 h1

theorem refresh_bare' {now : Nat} {cum : SMap} (hc : History cum) {x x' : Mining} (hx : MiningOk x) {n : Nat}
    (h0 : x.share = 0) (hn : x'.stakeFromOthers = 0)
    (h : ({ x with stakeFromOthers := n } : Mining).refreshRewards now cum = .ok x') : x'.unclaimed = x.unclaimed := by
  have hx1 : MiningOk ({ x with stakeFromOthers := n } : Mining) := ⟨hx.1, hx.2⟩
  obtain ⟨-, -, hf⟩ := refresh_same hc hx1 h
  exact refresh_bare (m := { x with stakeFromOthers := n }) hc hx1 ⟨h0, hf.symm.trans hn⟩ h

theorem StakeOp.bare {caps : Caps} {now : Nat} {p p' : Pool} {m m' x x' : Mining} {i : Ix} (hp : PoolOk now p)
    (hm : MiningOk m) (hx : MiningOk x) (h0 : NoStake x) (hn : x'.stakeFromOthers = 0)
    (h : StakeOp caps now p m (some x) p' m' (some x') i) : x'.unclaimed = x.unclaimed := by
  cases i with
  | depositMining a l o dl =>
    obtain ⟨y, q, q', e1, e2, e3⟩ := (deposit_credit hp hm h).2 x rfl
    cases e1
    rw [delegateAdd_ok, e2] at e3
    exact refresh_bare' hp.history hx h0.1 hn e3.2.2.1
  | withdrawMining a o dl =>
    obtain ⟨y, q, q', e1, e2, e3⟩ := (withdraw_credit hp h).2 x rfl
    cases e1
    rw [delegateSub_ok, e2] at e3
    exact refresh_bare' hp.history hx h0.1 hn e3.2.2.1
  | extendStake ol nl ts b a o dl =>
    obtain ⟨x1, y, q, q', r, r', e1, e2, e3, e4, e5⟩ := (extend_credit hp hm (by rintro _ ⟨⟩; exact hx) h).2 x rfl
    cases e1
    rw [delegateSub_ok, e2] at e4
    rw [delegateAdd_ok, e3] at e5
    have hx0 : MiningOk ({ x with stakeFromOthers := x.stakeFromOthers - b } : Mining) := ⟨hx.1, hx.2⟩
    obtain ⟨-, ho, hf⟩ := refresh_same hp.history hx0 e4.2.2.1
    have hs : ({ x with stakeFromOthers := x.stakeFromOthers - b } : Mining).stakeFromOthers = 0 := by
      show x.stakeFromOthers - b = 0
      rw [h0.2, Nat.zero_sub]
    have h1 : x1.unclaimed = x.unclaimed := refresh_bare' hp.history hx h0.1 (hf.trans hs) e4.2.2.1
    obtain ⟨c, e6, -⟩ := refresh_ok hp.history hx0.sorted e4.2.2.1
    have h2 : x1.share = 0 := by
      rw [e6]; show x.share - _ = 0
      rw [h0.1, Nat.zero_sub]
    exact (refresh_bare' hp.history ho h2 hn e5.2.2.1).trans h1
  | slash o n mu ex => obtain ⟨-, h, -⟩ := h; cases h
  | _ => exact h.elim

/-- What an instruction does to the credited rewards of a mining that has no stake before and none delegated after it. -/
theorem Step.bare {now : Nat} {w w' : World} {accs : List AccountInfo} {i : Ix} {ret : Option Nat}
    (h : Step env now w w' accs i ret) {k : Key} {m m' : Mining} (hm : MiningAt env w k m) (hm' : MiningAt env w' k m')
    (h0 : NoStake m) (hn : m'.stakeFromOthers = 0) : claimedOut accs k i ret + m'.unclaimed = m.unclaimed := by
  have tok : ∀ j, (w j).owner = env.tokenProgram → k ≠ j := by
    rintro j hj rfl; exact env.program_ne_token (hm.1.symm.trans hj)
  have sys : ∀ j, (w j).owner = env.systemProgram → k ≠ j := by
    rintro j hj rfl; exact env.program_ne_system (hm.1.symm.trans hj)
  have idle : w' k = w k → claimedOut accs k i ret = 0 → claimedOut accs k i ret + m'.unclaimed = m.unclaimed := by
    intro e hc
    obtain rfl := MiningAt.unique ((miningAt_congr e).mp hm') hm
    rw [hc, Nat.zero_add]
  cases h with
  | @stake _ P1 M A D q q' m1 m1' d d' accs_eq op chk del quiet same sfo ok' sameDel eff shell =>
    obtain ⟨-, -, -, r4⟩ := op.facts
    rw [r4 _ _ _, Nat.zero_add]
    rcases eff.minings hm with ⟨rfl, rfl, h1⟩ | ⟨h1, hne, rfl, y', rfl, h2⟩ | ⟨n1, n2, h1⟩
    · obtain rfl := MiningAt.unique hm' h1
      exact CreditedAs.bare chk.good.ok.history chk.miningOk h0 (op.credit chk.good.ok chk.miningOk (fun x hx => (del x hx).ok))
    · obtain rfl := MiningAt.unique hm' h2
      exact op.bare chk.good.ok chk.miningOk (del _ rfl).ok h0 hn
    · obtain rfl := MiningAt.unique hm' h1; rfl
  | @redelegate a nd P1 M A O Old New rest q q' m1 m1' od od' dn dn' accs_eq signed op chk newDel oldOk oldAt ne quiet same sfo
      ok' sameNew sameOld neP eff shell =>
    show 0 + m'.unclaimed = m.unclaimed
    rw [Nat.zero_add]
    have hop := op
    rw [changeDelegate_ok] at hop
    by_cases hk : k = M.key
    · subst hk
      obtain rfl := MiningAt.unique hm eff.mining
      obtain rfl := MiningAt.unique hm' eff.mining'
      exact refresh_bare chk.good.ok.history chk.miningOk h0 hop.1
    · obtain ⟨-, hod, hdn⟩ := redelegate_credit op
      by_cases hk2 : k = Old.key
      · subst hk2
        obtain ⟨rfl, x', rfl, h4⟩ := eff.old.at hk hm
        obtain rfl := MiningAt.unique hm' h4
        obtain ⟨y, r, r', e1, e2, e3⟩ := hod _ rfl
        cases e1
        rw [delegateSub_ok, e2] at e3
        exact refresh_bare' chk.good.ok.history (oldOk _ rfl) h0.1 hn e3.2.2.1
      · by_cases hk3 : k = New.key
        · subst hk3
          obtain ⟨rfl, x', rfl, h4⟩ := eff.new.at hk hm
          obtain rfl := MiningAt.unique hm' h4
          obtain ⟨y, r, r', e1, e2, e3⟩ := hdn _ rfl
          cases e1
          rw [delegateAdd_ok, e2] at e3
          exact refresh_bare' chk.good.ok.history (newDel _ rfl).ok h0.1 hn e3.2.2.1
        · obtain rfl := MiningAt.unique hm' ((miningAt_congr
            (eff.frame k (by rintro rfl; exact PoolAt.not_mining eff.pool hm) hk hk2 hk3)).mpr hm)
          rfl
  | @decrease o n A P1 M rest q m1 m1' accs_eq chk pool op mining mining' same ok' sfo frame shell =>
    by_cases hk : k = M.key
    · subst hk
      obtain rfl := MiningAt.unique hm mining
      obtain rfl := MiningAt.unique hm' mining'
      show 0 + m'.unclaimed = m.unclaimed
      rcases decreaseRewards_ok.mp op with ⟨-, rfl⟩ | ⟨-, -, rfl⟩ <;> exact Nat.zero_add _
    · exact idle (frame k hk) rfl
  | @claim P1 T V M O A U K rest q m1 m2 n accs_eq signedO signedA eff =>
    obtain ⟨t, htok, -⟩ := eff.userTok
    have a2 : miningArg accs .claim = some M.key := by rw [accs_eq]; rfl
    by_cases hk : k = M.key
    · subst hk
      obtain rfl := MiningAt.unique hm eff.mining
      obtain rfl := MiningAt.unique hm' eff.mining'
      have hcl : claimedOut accs M.key .claim (some n) = n := by simp [claimedOut, a2]
      rw [hcl, eff.amount]
      exact refresh_bare eff.good.ok.history eff.miningOk h0 eff.refreshed
    · refine idle (eff.frame k hk (tok _ eff.vaultTok) (tok _ htok.1)) ?_
      simp only [claimedOut, a2, Option.some.injEq]
      exact if_neg (Ne.symm hk)
  | distribute _ _ _ _ pool _ _ _ _ _ frame =>
    exact idle (frame k (by rintro rfl; exact PoolAt.not_mining pool hm)) rfl
  | @fill r e P1 T V F S K rest q w1 accs_eq signed auth good pool vault nonzero future later endBound bound pool' w1_frame
      transfer frame neS neV shell =>
    obtain ⟨t, t', ht1, -⟩ := transfer.srcTok
    obtain ⟨u, u', hu, -⟩ := transfer.dstTok
    refine idle (frame k (by rintro rfl; exact PoolAt.not_mining pool hm) (tok _ ?_) (tok _ ?_)) rfl
    · rw [← w1_frame _ neS]; exact ht1.1
    · rw [← w1_frame _ neV]; exact hu.1
  | @close M O G A P1 rest q m1 m2 accs_eq signedO signedA good pool auth mining init miningOk owner refreshed sfo paid target
      closed credited frame ne neG =>
    by_cases hk : k = M.key
    · subst hk
      have := hm'.2; rw [closed] at this; cases this
    · exact idle (frame k hk (sys _ target)) rfl
  | @initPool f d P1 T V Y A R K S rest bump accs_eq signedY signedA owned len fresh notPda vault pool' vaultBefore vault'
      payer payer' frame =>
    refine idle (frame k ?_ (sys _ vaultBefore.2.2) (sys _ payer.2.1)) rfl
    rintro rfl
    have := hm'.2; rw [pool'] at this; cases this
  | initMining _ _ _ _ before _ payer _ frame =>
    exact idle (frame k (sys _ before.2.2) (sys _ payer.2.1)) rfl

theorem apply_bare {s : Chain} (hw : Wf env s.now s.world) {e : Event} (hv : e.Valid env s) {k : Key} {m : Mining}
    (hc : LeavesBare env k s e) (hm : MiningAt env s.world k m) (ht : m.accountType = 2) (h0 : NoStake m)
    (hl : 0 < (s.world k).lamports) :
    ∃ m', MiningAt env (s.apply env e).world k m' ∧ SameMining m m' ∧ NoStake m' ∧
      claimedBy env k s e + m'.unclaimed = m.unclaimed ∧ 0 < ((s.apply env e).world k).lamports := by
  obtain ⟨c1, c2, c3⟩ := hc
  rcases apply_mining hw hv c1 hm ht hl with ⟨m', h1, h2, h3⟩ | ⟨accs, w', ret, rfl, -, h3⟩
  · refine ⟨m', h1, h2, c3 m' h1, ?_, h3⟩
    have same : (s.apply env e).world k = s.world k → claimedBy env k s e = 0 →
        claimedBy env k s e + m'.unclaimed = m.unclaimed := by
      intro e1 e2
      obtain rfl := MiningAt.unique ((miningAt_congr e1).mp h1) hm
      rw [e2, Nat.zero_add]
    cases e with
    | ix accs i =>
      cases hx : exec env s.now s.world accs i with
      | error er => exact same (by rw [apply_ix_error hx]) (by simp [claimedBy, hx])
      | ok r =>
        obtain ⟨w', ret⟩ := r
        rw [apply_ix_ok hx] at h1 c3
        simpa [claimedBy, hx] using (step_of_exec hw hv c1 hx).bare hm h1 h0 (c3 m' h1).2
    | tick d => exact same rfl rfl
    | gc j =>
      have hne : k ≠ j := by rintro rfl; exact absurd (show (s.world k).lamports = 0 from hv) (by omega)
      exact same (world_set_ne _ _ hne) rfl
    | ext w' =>
      obtain ⟨e1, -, e3, -⟩ := hv.program_owned k hm.1
      obtain rfl := MiningAt.unique h1 ⟨e1.trans hm.1, e3.trans hm.2⟩
      exact Nat.zero_add _
  · exact absurd h3 (c2 accs rfl)

theorem runs_bare {k : Key} {s s' : Chain} {es : List Event} (hr : RunsWith env (LeavesBare env k) s es s') :
    ∀ {m : Mining}, Wf env s.now s.world → MiningAt env s.world k m → m.accountType = 2 → NoStake m →
    0 < (s.world k).lamports →
    ∃ m', MiningAt env s'.world k m' ∧ SameMining m m' ∧ totalIn env (claimedBy env k) s es + m'.unclaimed = m.unclaimed := by
  induction hr with
  | nil s => exact fun _ hm _ _ _ => ⟨_, hm, .refl _, Nat.zero_add _⟩
  | cons hv hc _ ih =>
    intro m hw hm ht h0 hl
    obtain ⟨m1, h1, h2, h3, h4, h5⟩ := apply_bare hw hv hc hm ht h0 hl
    obtain ⟨m2, g1, g2, g3⟩ := ih (wf_apply hw hv hc.1) h1 (h2.accountType.trans ht) h3 h5
    refine ⟨m2, g1, h2.trans g2, ?_⟩
    rw [totalIn]; omega

end Verif
