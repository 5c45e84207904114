import Verif.Spec.Earnings
import Verif.Lemmas.Credited
import Verif.Lemmas.Life
/-!
What a mining has earned by its own stake is credited by the next instruction that names it.
-/

namespace Verif

open Spec

variable {env : Env}

theorem ownOwed_append (m : Mining) {l l' : List (Nat × Nat)} (h : l <+: l') : ownOwed m l ≤ ownOwed m l' := by
  obtain ⟨t, rfl⟩ := h
  unfold ownOwed
  rw [earned_append]
  omega

theorem unclaimed_le_ownOwed (m : Mining) (l : List (Nat × Nat)) : 10 ^ 16 * m.unclaimed ≤ ownOwed m l := Nat.le_add_right _ _

/-- Refreshing a mining, whatever is delegated to it, credits what it has earned by its own stake. -/
theorem refresh_ownOwed {cum : SMap} (hc : History cum) {now : Nat} (hs : Settled cum now) {m m1 : Mining} (hm : MiningOk m)
    (n : Nat) (h : ({ m with stakeFromOthers := n } : Mining).refreshRewards now cum = .ok m1) :
    ownOwed m cum ≤ 10 ^ 16 * (expiredCount m (midnight now) + 1) + 10 ^ 16 * m1.unclaimed := by
  have hm' : MiningOk ({ m with stakeFromOthers := n } : Mining) := ⟨hm.1, hm.2⟩
  obtain ⟨-, h1, h2, -⟩ := refresh_owed hc hm' h
  rw [owed_current hc (m := m1) (by rw [h2, settled_index hs]; exact Nat.le_refl _)] at h1
  have h3 : ownOwed m cum ≤ owed { m with stakeFromOthers := n } cum := by
    unfold ownOwed owed pending
    refine Nat.add_le_add_left (earned_le (fun e _ => ?_)) _
    show m.share - dueBy m.diffs e.1 ≤ m.share + n - dueBy m.diffs e.1
    omega
  have h4 : expiredCount { m with stakeFromOthers := n } (bod now) = expiredCount m (midnight now) := by
    rw [bod_eq_midnight]; rfl
  rw [h4] at h1
  omega

theorem refresh_ownOwed' {cum : SMap} (hc : History cum) {now : Nat} (hs : Settled cum now) {m m1 : Mining} (hm : MiningOk m)
    (h : m.refreshRewards now cum = .ok m1) :
    ownOwed m cum ≤ 10 ^ 16 * (expiredCount m (midnight now) + 1) + 10 ^ 16 * m1.unclaimed :=
  refresh_ownOwed hc hs hm m.stakeFromOthers h

/-- The delegate of a stake operation. -/
theorem StakeOp.ownCredited {caps : Caps} {now : Nat} {p p' : Pool} {m m' x x' : Mining} {i : Ix} (hp : PoolOk now p)
    (hs : Settled p.cumulative now) (hm : MiningOk m) (hx : MiningOk x)
    (h : StakeOp caps now p m (some x) p' m' (some x') i) :
    ownOwed x p.cumulative ≤ 10 ^ 16 * (expiredCount x (midnight now) + 1) + 10 ^ 16 * x'.unclaimed := by
  cases i with
  | depositMining a l o dl =>
    obtain ⟨y, q, q', e1, e2, e3⟩ := (deposit_credit hp hm h).2 x rfl
    cases e1
    rw [delegateAdd_ok, e2] at e3
    exact refresh_ownOwed hp.history hs hx _ e3.2.2.1
  | withdrawMining a o dl =>
    obtain ⟨y, q, q', e1, e2, e3⟩ := (withdraw_credit hp h).2 x rfl
    cases e1
    rw [delegateSub_ok, e2] at e3
    exact refresh_ownOwed hp.history hs hx _ e3.2.2.1
  | extendStake ol nl ts b a o dl =>
    obtain ⟨x1, y, q, q', r, r', e1, e2, e3, e4, e5⟩ := (extend_credit hp hm (by rintro _ ⟨⟩; exact hx) h).2 x rfl
    cases e1
    rw [delegateSub_ok, e2] at e4
    rw [delegateAdd_ok, e3] at e5
    have g1 := refresh_ownOwed hp.history hs hx _ e4.2.2.1
    have g2 := (refresh_grows' hp.history (refresh_grows' hp.history hx _ e4.2.2.1).2 _ e5.2.2.1).1
    omega
  | slash o n mu ex => obtain ⟨-, h, -⟩ := h; cases h
  | _ => exact h.elim

/-- What an instruction leaves of the rewards the mining at `k` has earned by its own stake. -/
theorem Step.ownKept {now : Nat} {w w' : World} {accs : List AccountInfo} {i : Ix} {ret : Option Nat}
    (h : Step env now w w' accs i ret) {k : Key} {m : Mining} (hm : MiningAt env w k m) (ht : m.accountType = 2) {P : Key}
    {p p' : Pool} (hp : PoolAt env w P p) (hcum : p.cumulative <+: p'.cumulative)
    (hreg : Regular env P k now w accs i) :
    (∃ m', MiningAt env w' k m' ∧ SameMining m m' ∧ (w' k).lamports = (w k).lamports ∧
      ownOwed m p.cumulative ≤ 10 ^ 16 * (claimedOut accs k i ret + roundings accs i k now m) + ownOwed m' p'.cumulative) ∨
    (i = .closeMining ∧ miningArg accs i = some k ∧ ownOwed m p.cumulative ≤ 10 ^ 16 * roundings accs i k now m) := by
  have tok : ∀ j, (w j).owner = env.tokenProgram → k ≠ j := by
    rintro j hj rfl; exact env.program_ne_token (hm.1.symm.trans hj)
  have sys : ∀ j, (w j).owner = env.systemProgram → k ≠ j := by
    rintro j hj rfl; exact env.program_ne_system (hm.1.symm.trans hj)
  have idle : w' k = w k → ∃ m', MiningAt env w' k m' ∧ SameMining m m' ∧ (w' k).lamports = (w k).lamports ∧
      ownOwed m p.cumulative ≤ 10 ^ 16 * (claimedOut accs k i ret + roundings accs i k now m) + ownOwed m' p'.cumulative :=
    fun e => ⟨m, (miningAt_congr e).mpr hm, .refl m, by rw [e],
      Nat.le_trans (ownOwed_append m hcum) (Nat.le_add_left _ _)⟩
  have named : names accs i k = true → ∀ {m' : Mining},
      ownOwed m p.cumulative ≤ 10 ^ 16 * (expiredCount m (midnight now) + 1) + 10 ^ 16 * m'.unclaimed →
      ownOwed m p.cumulative ≤ 10 ^ 16 * (claimedOut accs k i ret + roundings accs i k now m) + ownOwed m' p'.cumulative := by
    intro hn m' hle
    have := unclaimed_le_ownOwed m' p'.cumulative
    simp only [roundings, hn, if_true]
    omega
  cases h with
  | @stake _ P1 M A D q q' m1 m1' d d' accs_eq op chk del quiet same sfo ok' sameDel eff shell =>
    left
    obtain ⟨a1, a2, a3⟩ := accs_eq.pool ⟨_, _, _, _, _, _, _, _, op⟩
    have pooled : names accs i k = true → q = p ∧ Settled q.cumulative now := by
      intro hn
      obtain ⟨-, r1, r2⟩ := hreg hn
      have hP : P1.key = P := Option.some.inj (a1.symm.trans r1)
      have hq : q = p := PoolAt.unique (hP ▸ eff.pool) hp
      exact ⟨hq, hq ▸ r2 _ hp⟩
    rcases eff.minings hm with ⟨rfl, rfl, h1⟩ | ⟨h1, h0, rfl, y', rfl, h2⟩ | ⟨n1, n2, h1⟩
    · have hn : names accs i M.key = true := by simp [names, a2]
      obtain ⟨rfl, hs⟩ := pooled hn
      obtain ⟨m2, c1, c2, -⟩ := op.credit chk.good.ok chk.miningOk (fun x hx => (del x hx).ok)
      exact ⟨_, h1, same, (shell _).2.1, named hn (by rw [c2]; exact refresh_ownOwed' chk.good.ok.history hs chk.miningOk c1)⟩
    · have hn : names accs i k = true := by
        subst h1
        simp [names, a3 h0]
      obtain ⟨rfl, hs⟩ := pooled hn
      exact ⟨_, h2, sameDel.1, (shell _).2.1, named hn (op.ownCredited chk.good.ok hs chk.miningOk (del _ rfl).ok)⟩
    · exact idle (eff.frame k (by rintro rfl; exact PoolAt.not_mining eff.pool hm) n1 n2)
  | @redelegate a nd P1 M A O Old New rest q q' m1 m1' od od' dn dn' accs_eq signed op chk newDel oldOk oldAt ne quiet same sfo
      ok' sameNew sameOld neP eff shell =>
    left
    have a1 : poolArg accs (.changeDelegate a nd) = some P1.key := by rw [accs_eq]; rfl
    have a2 : miningArg accs (.changeDelegate a nd) = some M.key := by rw [accs_eq]; rfl
    have a3 : delegateArg accs (.changeDelegate a nd) = some New.key := by rw [accs_eq]; rfl
    have a4 : oldDelegateArg accs (.changeDelegate a nd) = some Old.key := by rw [accs_eq]; rfl
    have pooled : names accs (.changeDelegate a nd) k = true → q = p ∧ Settled q.cumulative now := by
      intro hn
      obtain ⟨-, r1, r2⟩ := hreg hn
      have hP : P1.key = P := Option.some.inj (a1.symm.trans r1)
      have hq : q = p := PoolAt.unique (hP ▸ eff.pool) hp
      exact ⟨hq, hq ▸ r2 _ hp⟩
    have hop := op
    rw [changeDelegate_ok] at hop
    by_cases hk : k = M.key
    · subst hk
      have hn : names accs (.changeDelegate a nd) M.key = true := by simp [names, a2]
      obtain ⟨rfl, hs⟩ := pooled hn
      obtain rfl := MiningAt.unique hm eff.mining
      exact ⟨_, eff.mining', same, (shell _).2.1, named hn (refresh_ownOwed' chk.good.ok.history hs chk.miningOk hop.1)⟩
    · obtain ⟨-, hod, hdn⟩ := redelegate_credit op
      by_cases hk2 : k = Old.key
      · subst hk2
        have hn : names accs (.changeDelegate a nd) Old.key = true := by simp [names, a4]
        obtain ⟨rfl, hs⟩ := pooled hn
        obtain ⟨rfl, x', rfl, h4⟩ := eff.old.at hk hm
        obtain ⟨y, r, r', e1, e2, e3⟩ := hod _ rfl
        cases e1
        rw [delegateSub_ok, e2] at e3
        exact ⟨_, h4, sameOld.1, (shell _).2.1, named hn (refresh_ownOwed chk.good.ok.history hs (oldOk _ rfl) _ e3.2.2.1)⟩
      · by_cases hk3 : k = New.key
        · subst hk3
          have hn : names accs (.changeDelegate a nd) New.key = true := by simp [names, a3]
          obtain ⟨rfl, hs⟩ := pooled hn
          obtain ⟨rfl, x', rfl, h4⟩ := eff.new.at hk hm
          obtain ⟨y, r, r', e1, e2, e3⟩ := hdn _ rfl
          cases e1
          rw [delegateAdd_ok, e2] at e3
          exact ⟨_, h4, sameNew.1, (shell _).2.1, named hn (refresh_ownOwed chk.good.ok.history hs (newDel _ rfl).ok _ e3.2.2.1)⟩
        · exact idle (eff.frame k (by rintro rfl; exact PoolAt.not_mining eff.pool hm) hk hk2 hk3)
  | @decrease o n A P1 M rest q m1 m1' accs_eq chk pool op mining mining' same ok' sfo frame shell =>
    left
    refine idle (frame k ?_)
    rintro rfl
    have hn : names accs (.decreaseRewards o n) M.key = true := by rw [accs_eq]; simp [names, miningArg]
    exact (hreg hn).1 o n rfl
  | @claim P1 T V M O A U K rest q m1 m2 n accs_eq signedO signedA eff =>
    left
    obtain ⟨t, htok, -⟩ := eff.userTok
    have a1 : poolArg accs .claim = some P1.key := by rw [accs_eq]; rfl
    have a2 : miningArg accs .claim = some M.key := by rw [accs_eq]; rfl
    by_cases hk : k = M.key
    · subst hk
      have hn : names accs .claim M.key = true := by simp [names, a2]
      obtain ⟨-, r1, r2⟩ := hreg hn
      have hP : P1.key = P := Option.some.inj (a1.symm.trans r1)
      obtain rfl : q = p := PoolAt.unique (hP ▸ eff.pool) hp
      obtain rfl := MiningAt.unique hm eff.mining
      obtain ⟨s, -⟩ := refresh_same eff.good.ok.history eff.miningOk eff.refreshed
      have hcl : claimedOut accs M.key .claim (some n) = n := by simp [claimedOut, a2]
      refine ⟨_, eff.mining', ⟨s.1, s.2, s.3, s.4, s.5⟩, eff.lamports, ?_⟩
      have := refresh_ownOwed' eff.good.ok.history (r2 _ hp) eff.miningOk eff.refreshed
      rw [hcl, eff.amount]
      simp only [roundings, hn, if_true]
      omega
    · exact idle (eff.frame k hk (tok _ eff.vaultTok) (tok _ htok.1))
  | distribute _ _ _ _ pool _ _ _ _ _ frame =>
    exact Or.inl (idle (frame k (by rintro rfl; exact PoolAt.not_mining pool hm)))
  | @fill r e P1 T V F S K rest q w1 accs_eq signed auth good pool vault nonzero future later endBound bound pool' w1_frame
      transfer frame neS neV shell =>
    left
    obtain ⟨t, t', ht1, -⟩ := transfer.srcTok
    obtain ⟨u, u', hu, -⟩ := transfer.dstTok
    refine idle (frame k (by rintro rfl; exact PoolAt.not_mining pool hm) (tok _ ?_) (tok _ ?_))
    · rw [← w1_frame _ neS]; exact ht1.1
    · rw [← w1_frame _ neV]; exact hu.1
  | @close M O G A P1 rest q m1 m2 accs_eq signedO signedA good pool auth mining init miningOk owner refreshed sfo paid target
      closed credited frame ne neG =>
    have a1 : poolArg accs .closeMining = some P1.key := by rw [accs_eq]; rfl
    have a2 : miningArg accs .closeMining = some M.key := by rw [accs_eq]; rfl
    by_cases hk : k = M.key
    · subst hk
      have hn : names accs .closeMining M.key = true := by simp [names, a2]
      obtain ⟨-, r1, r2⟩ := hreg hn
      have hP : P1.key = P := Option.some.inj (a1.symm.trans r1)
      obtain rfl : q = p := PoolAt.unique (hP ▸ pool) hp
      obtain rfl := MiningAt.unique hm mining
      have := refresh_ownOwed' good.ok.history (r2 _ hp) miningOk refreshed
      refine Or.inr ⟨rfl, a2, ?_⟩
      rw [paid] at this
      simp only [roundings, hn, if_true]
      omega
    · exact Or.inl (idle (frame k hk (sys _ target)))
  | @initPool f d P1 T V Y A R K S rest bump accs_eq signedY signedA owned len fresh notPda vault pool' vaultBefore vault'
      payer payer' frame =>
    left
    refine idle (frame k ?_ (sys _ vaultBefore.2.2) (sys _ payer.2.1))
    rintro rfl
    rcases fresh with h1 | ⟨m', h1, h2⟩
    · rw [hm.2] at h1; cases h1
    · rw [hm.2] at h1; cases h1; exact absurd (ht.symm.trans h2.type) (by decide)
  | initMining _ _ _ _ before _ payer _ frame =>
    exact Or.inl (idle (frame k (sys _ before.2.2) (sys _ payer.2.1)))

theorem Spec.RegularEvent.clean {P k : Key} {s : Chain} {e : Event} (h : RegularEvent env P k s e) : CleanEvent env s e := h.1

/-- The same for an event. -/
theorem apply_own {s : Chain} (hw : Wf env s.now s.world) {e : Event} (hv : e.Valid env s) {P k : Key}
    (hc : RegularEvent env P k s e) {m : Mining} (hm : MiningAt env s.world k m) (ht : m.accountType = 2)
    (hl : 0 < (s.world k).lamports) {p : Pool} (hp : PoolAt env s.world P p) (hlp : 0 < (s.world P).lamports) :
    ∃ p', PoolAt env (s.apply env e).world P p' ∧ 0 < ((s.apply env e).world P).lamports ∧
    ((∃ m', MiningAt env (s.apply env e).world k m' ∧ SameMining m m' ∧ 0 < ((s.apply env e).world k).lamports ∧
      ownOwed m p.cumulative ≤ 10 ^ 16 * (claimedBy env k s e + roundingsBy env k s e) + ownOwed m' p'.cumulative) ∨
    ownOwed m p.cumulative ≤ 10 ^ 16 * roundingsBy env k s e) := by
  obtain ⟨p', h1, h2, h3⟩ := apply_pool hw hv hc.1 hp hlp
  have hcum : p.cumulative <+: p'.cumulative := by
    cases h3 with
    | same => exact List.prefix_refl _
    | ix ok change =>
      rcases (change.history (poolAt_good hw hp).ok).1 with h1 | ⟨-, h1⟩
      · rw [h1]; exact List.prefix_refl _
      · rw [h1]; exact List.prefix_append _ _
  have still : ownOwed m p.cumulative ≤
      10 ^ 16 * (claimedBy env k s e + roundingsBy env k s e) + ownOwed m p'.cumulative :=
    Nat.le_trans (ownOwed_append m hcum) (Nat.le_add_left _ _)
  refine ⟨p', h1, h2, ?_⟩
  cases e with
  | ix accs i =>
    cases hx : exec env s.now s.world accs i with
    | error er =>
      rw [apply_ix_error hx]
      exact Or.inl ⟨m, hm, .refl m, hl, still⟩
    | ok r =>
      obtain ⟨w', ret⟩ := r
      rw [apply_ix_ok hx]
      have e1 : claimedBy env k s (.ix accs i) = claimedOut accs k i ret := by simp [claimedBy, hx]
      have e2 : roundingsBy env k s (.ix accs i) = roundings accs i k s.now m := by
        simp [roundingsBy, hm.2, succeeded, hx]
      rw [e1, e2]
      rcases (step_of_exec hw hv hc.1 hx).ownKept hm ht hp hcum (hc.2 _ _ rfl) with ⟨m', g1, g2, g3, g4⟩ | ⟨-, -, g1⟩
      · exact Or.inl ⟨m', g1, g2, by show 0 < (w' k).lamports; rw [g3]; exact hl, g4⟩
      · exact Or.inr g1
  | tick d => exact Or.inl ⟨m, hm, .refl m, hl, still⟩
  | gc j =>
    have hne : k ≠ j := by rintro rfl; exact absurd (show (s.world k).lamports = 0 from hv) (by omega)
    have e1 : (s.apply env (.gc j)).world k = s.world k := world_set_ne _ _ hne
    exact Or.inl ⟨m, (miningAt_congr e1).mpr hm, .refl m, by rw [e1]; exact hl, still⟩
  | ext w' =>
    obtain ⟨e1, -, e3, e4⟩ := hv.program_owned k hm.1
    exact Or.inl ⟨m, ⟨e1.trans hm.1, e3.trans hm.2⟩, .refl m, Nat.lt_of_lt_of_le hl e4, still⟩

theorem runs_own {P k : Key} {s s' : Chain} {es : List Event} (hr : RunsWith env (RegularEvent env P k) s es s') :
    ∀ {m : Mining} {p : Pool}, Wf env s.now s.world → MiningAt env s.world k m → m.accountType = 2 →
    0 < (s.world k).lamports → PoolAt env s.world P p → 0 < (s.world P).lamports →
    ownOwed m p.cumulative ≤ 10 ^ 16 * (totalIn env (claimedBy env k) s es + totalIn env (roundingsBy env k) s es) ∨
    ∃ m' p', MiningAt env s'.world k m' ∧ SameMining m m' ∧ PoolAt env s'.world P p' ∧
      ownOwed m p.cumulative ≤ 10 ^ 16 * (totalIn env (claimedBy env k) s es + totalIn env (roundingsBy env k) s es) +
        ownOwed m' p'.cumulative := by
  induction hr with
  | nil s => exact fun _ hm _ _ hp _ => Or.inr ⟨_, _, hm, .refl _, hp, Nat.le_add_left _ _⟩
  | cons hv hc _ ih =>
    intro m p hw hm ht hl hp hlp
    obtain ⟨p1, k1, k2, h⟩ := apply_own hw hv hc hm ht hl hp hlp
    simp only [totalIn]
    rcases h with ⟨m1, h1, h2, h4, h3⟩ | h1
    · rcases ih (wf_apply hw hv hc.1) h1 (h2.accountType.trans ht) h4 k1 k2 with g | ⟨m2, p2, g1, g2, g3, g4⟩
      · left; omega
      · right; exact ⟨m2, p2, g1, h2.trans g2, g3, by omega⟩
    · left; omega

end Verif
