import Verif.Lemmas.Access
import Verif.Lemmas.Life
import Verif.Spec.Outsider
/-!
What happens to a pool, its minings and token accounts when certain people do not sign.
-/

namespace Verif

open Spec

variable {env : Env}

theorem Upd.grows {cum : SMap} {date sh u i u' : Nat} (h : Upd cum date sh u i u') : u ≤ u' := by
  rw [h.2.2.2.2]; exact Nat.le_add_right _ _

theorem RunOk.grows {cum : SMap} {b t : Nat} {D : List (Nat × Nat)} {sh u i sh' u' : Nat}
    (h : RunOk cum b t D sh u i sh' u') : u ≤ u' := by
  induction D generalizing sh u i with
  | nil => exact h.1.grows
  | cons a rest ih =>
    obtain ⟨e, v⟩ := a
    rw [RunOk] at h
    split at h
    · exact h.1.grows
    · obtain ⟨u1, h1, -, h2⟩ := h
      exact Nat.le_trans h1.grows (ih h2)

/-- Bringing a mining up to date never takes rewards away. -/
theorem refresh_grows {cum : SMap} (hc : History cum) {now : Nat} {m m' : Mining} (hm : MiningOk m)
    (h : m.refreshRewards now cum = .ok m') : m.unclaimed ≤ m'.unclaimed := by
  obtain ⟨-, sh, u, h1, -, rfl⟩ := (refresh_iff hc hm.sorted).mp h
  exact h1.grows

theorem CreditedAs.grows {now : Nat} {cum : SMap} (hc : History cum) {m m' : Mining} (hm : MiningOk m)
    (h : CreditedAs now cum m m') : m.unclaimed ≤ m'.unclaimed := by
  obtain ⟨m1, h1, h2, -⟩ := h
  rw [h2]; exact refresh_grows hc hm h1

theorem refresh_grows' {now : Nat} {cum : SMap} (hc : History cum) {x x' : Mining} (hx : MiningOk x) (n : Nat)
    (h : ({ x with stakeFromOthers := n } : Mining).refreshRewards now cum = .ok x') :
    x.unclaimed ≤ x'.unclaimed ∧ MiningOk x' :=
  have hx1 : MiningOk ({ x with stakeFromOthers := n } : Mining) := ⟨hx.1, hx.2⟩
  ⟨refresh_grows (m := { x with stakeFromOthers := n }) hc hx1 h, (refresh_same hc hx1 h).2.1⟩

theorem StakeOp.grows {caps : Caps} {now : Nat} {p p' : Pool} {m m' x x' : Mining} {i : Ix} (hp : PoolOk now p)
    (hm : MiningOk m) (hx : MiningOk x) (h : StakeOp caps now p m (some x) p' m' (some x') i) :
    x.unclaimed ≤ x'.unclaimed := by
  cases i with
  | depositMining a l o dl =>
    obtain ⟨y, q, q', e1, e2, e3⟩ := (deposit_credit hp hm h).2 x rfl
    cases e1
    rw [delegateAdd_ok, e2] at e3
    exact (refresh_grows' hp.history hx _ e3.2.2.1).1
  | withdrawMining a o dl =>
    obtain ⟨y, q, q', e1, e2, e3⟩ := (withdraw_credit hp h).2 x rfl
    cases e1
    rw [delegateSub_ok, e2] at e3
    exact (refresh_grows' hp.history hx _ e3.2.2.1).1
  | extendStake ol nl ts b a o dl =>
    obtain ⟨x1, y, q, q', r, r', e1, e2, e3, e4, e5⟩ := (extend_credit hp hm (by rintro _ ⟨⟩; exact hx) h).2 x rfl
    cases e1
    rw [delegateSub_ok, e2] at e4
    rw [delegateAdd_ok, e3] at e5
    obtain ⟨g1, g2⟩ := refresh_grows' hp.history hx _ e4.2.2.1
    exact Nat.le_trans g1 (refresh_grows' hp.history g2 _ e5.2.2.1).1
  | slash o n mu ex => obtain ⟨-, h, -⟩ := h; cases h
  | _ => exact h.elim

/-- Credited rewards leave a mining only by a claim or a closing, which its owner signs. -/
theorem Step.keeps {now : Nat} {w w' : World} {accs : List AccountInfo} {i : Ix} {ret : Option Nat}
    (h : Step env now w w' accs i ret) {k : Key} {m : Mining} (hm : MiningAt env w k m) (ht : m.accountType = 2)
    (ho : ¬ Signed accs m.owner) :
    ∃ m', MiningAt env w' k m' ∧ SameMining m m' ∧ m.unclaimed ≤ m'.unclaimed ∧ (w' k).lamports = (w k).lamports ∧
      claimedOut accs k i ret = 0 := by
  have tok : ∀ j, (w j).owner = env.tokenProgram → k ≠ j := by
    rintro j hj rfl; exact env.program_ne_token (hm.1.symm.trans hj)
  have sys : ∀ j, (w j).owner = env.systemProgram → k ≠ j := by
    rintro j hj rfl; exact env.program_ne_system (hm.1.symm.trans hj)
  have idle : w' k = w k → claimedOut accs k i ret = 0 → ∃ m', MiningAt env w' k m' ∧ SameMining m m' ∧
      m.unclaimed ≤ m'.unclaimed ∧ (w' k).lamports = (w k).lamports ∧ claimedOut accs k i ret = 0 :=
    fun e hc => ⟨m, (miningAt_congr e).mpr hm, .refl m, Nat.le_refl _, by rw [e], hc⟩
  cases h with
  | @stake _ P1 M A D q q' m1 m1' d d' accs_eq op chk del quiet same sfo ok' sameDel eff shell =>
    obtain ⟨-, -, -, r4⟩ := op.facts
    rcases eff.minings hm with ⟨rfl, rfl, h1⟩ | ⟨h1, h0, rfl, y', rfl, h2⟩ | ⟨n1, n2, h1⟩
    · exact ⟨_, h1, same, CreditedAs.grows chk.good.ok.history chk.miningOk
        (op.credit chk.good.ok chk.miningOk (fun x hx => (del x hx).ok)), (shell _).2.1, r4 _ _ _⟩
    · exact ⟨_, h2, sameDel.1, op.grows chk.good.ok chk.miningOk (del _ rfl).ok, (shell _).2.1, r4 _ _ _⟩
    · exact idle (eff.frame k (by rintro rfl; exact PoolAt.not_mining eff.pool hm) n1 n2) (r4 _ _ _)
  | @redelegate a nd P1 M A O Old New rest q q' m1 m1' od od' dn dn' accs_eq signed op chk newDel oldOk oldAt ne quiet same sfo
      ok' sameNew sameOld neP eff shell =>
    have hop := op
    rw [changeDelegate_ok] at hop
    by_cases hk : k = M.key
    · subst hk
      obtain rfl := MiningAt.unique hm eff.mining
      exact ⟨_, eff.mining', same, refresh_grows chk.good.ok.history chk.miningOk hop.1, (shell _).2.1, rfl⟩
    · obtain ⟨-, hod, hdn⟩ := redelegate_credit op
      by_cases hk2 : k = Old.key
      · subst hk2
        obtain ⟨rfl, x', rfl, h4⟩ := eff.old.at hk hm
        obtain ⟨y, r, r', e1, e2, e3⟩ := hod _ rfl
        cases e1
        rw [delegateSub_ok, e2] at e3
        exact ⟨_, h4, sameOld.1, (refresh_grows' chk.good.ok.history (oldOk _ rfl) _ e3.2.2.1).1, (shell _).2.1, rfl⟩
      · by_cases hk3 : k = New.key
        · subst hk3
          obtain ⟨rfl, x', rfl, h4⟩ := eff.new.at hk hm
          obtain ⟨y, r, r', e1, e2, e3⟩ := hdn _ rfl
          cases e1
          rw [delegateAdd_ok, e2] at e3
          exact ⟨_, h4, sameNew.1, (refresh_grows' chk.good.ok.history (newDel _ rfl).ok _ e3.2.2.1).1, (shell _).2.1, rfl⟩
        · exact idle (eff.frame k (by rintro rfl; exact PoolAt.not_mining eff.pool hm) hk hk2 hk3) rfl
  | @decrease o n A P1 M rest q m1 m1' accs_eq chk pool op mining mining' same ok' sfo frame shell =>
    by_cases hk : k = M.key
    · subst hk
      obtain rfl := MiningAt.unique hm mining
      refine ⟨_, mining', same, ?_, (shell _).2.1, rfl⟩
      rcases decreaseRewards_ok.mp op with ⟨-, rfl⟩ | ⟨-, -, rfl⟩ <;> exact Nat.le_refl _
    · exact idle (frame k hk) rfl
  | @claim P1 T V M O A U K rest q m1 m2 n accs_eq signedO signedA eff =>
    obtain ⟨t, htok, -⟩ := eff.userTok
    have a2 : miningArg accs .claim = some M.key := by rw [accs_eq]; rfl
    by_cases hk : k = M.key
    · subst hk
      obtain rfl := MiningAt.unique hm eff.mining
      exact absurd ⟨O, by rw [accs_eq]; simp, eff.owner.symm, signedO⟩ ho
    · refine idle (eff.frame k hk (tok _ eff.vaultTok) (tok _ htok.1)) ?_
      simp only [claimedOut, a2, Option.some.injEq]
      exact if_neg (Ne.symm hk)
  | distribute _ _ _ _ pool _ _ _ _ _ frame =>
    exact idle (frame k (by rintro rfl; exact PoolAt.not_mining pool hm)) rfl
  | @fill r e P1 T V F S K rest q w1 accs_eq signed auth good pool vault nonzero future later endBound bound pool' w1_frame
      transfer frame neS neV shell =>
    obtain ⟨t, t', ht1, -⟩ := transfer.srcTok
    obtain ⟨u, u', hu, -⟩ := transfer.dstTok
    refine idle (frame k (by rintro rfl; exact PoolAt.not_mining pool hm) (tok _ ?_) (tok _ ?_)) rfl
    · rw [← w1_frame _ neS]; exact ht1.1
    · rw [← w1_frame _ neV]; exact hu.1
  | @close M O G A P1 rest q m1 m2 accs_eq signedO signedA good pool auth mining init miningOk owner refreshed sfo paid target
      closed credited frame ne neG =>
    by_cases hk : k = M.key
    · subst hk
      obtain rfl := MiningAt.unique hm mining
      exact absurd ⟨O, by rw [accs_eq]; simp, owner.symm, signedO⟩ ho
    · exact idle (frame k hk (sys _ target)) rfl
  | @initPool f d P1 T V Y A R K S rest bump accs_eq signedY signedA owned len fresh notPda vault pool' vaultBefore vault'
      payer payer' frame =>
    refine idle (frame k ?_ (sys _ vaultBefore.2.2) (sys _ payer.2.1)) rfl
    rintro rfl
    rcases fresh with h1 | ⟨m', h1, h2⟩
    · rw [hm.2] at h1; cases h1
    · rw [hm.2] at h1; cases h1; exact absurd (ht.symm.trans h2.type) (by decide)
  | initMining _ _ _ _ before _ payer _ frame =>
    exact idle (frame k (sys _ before.2.2) (sys _ payer.2.1)) rfl

/-- A transfer takes tokens only from an account whose owner or SPL delegate is the authority. -/
theorem TransferEffect.drawn {w w' : World} {src dst auth : Key} {n : Nat} (h : TransferEffect env w w' src dst auth n) {k : Key}
    {t : TokenAcc} (ht : TokenAt env w k t) : ∃ t', TokenAt env w' k t' ∧
      (t'.amount < t.amount → t.delegate = some auth ∨ t.owner = auth) := by
  by_cases hk : k = src
  · subst hk
    obtain ⟨x, x', h1, h2, -, h3, -⟩ := h.srcTok
    obtain rfl := TokenAt.unique ht h1
    exact ⟨x', h2, fun _ => h3⟩
  · by_cases hd : k = dst
    · subst hd
      obtain ⟨x, x', h1, h2, -⟩ := h.dstTok
      obtain rfl := TokenAt.unique ht h1
      refine ⟨x', h2, fun hlt => ?_⟩
      rcases h.moved with ⟨rfl, -⟩ | ⟨-, -, -, h4⟩
      · exact absurd rfl hk
      · rw [TokenAt.balance ht, TokenAt.balance h2] at h4; omega
    · exact ⟨t, by unfold TokenAt; rw [h.frame k hk hd]; exact ht, fun hlt => absurd hlt (Nat.lt_irrefl _)⟩

/-- Tokens leave a token account only if its owner or its SPL delegate signs. -/
theorem Step.drawn {now : Nat} {w w' : World} {accs : List AccountInfo} {i : Ix} {ret : Option Nat}
    (h : Step env now w w' accs i ret) {k : Key} {t : TokenAcc} (ht : TokenAt env w k t) :
    ∃ t', TokenAt env w' k t' ∧ (t'.amount < t.amount → Signed accs t.owner ∨ ∃ d, t.delegate = some d ∧ Signed accs d) := by
  have same : w' k = w k → ∃ t', TokenAt env w' k t' ∧
      (t'.amount < t.amount → Signed accs t.owner ∨ ∃ d, t.delegate = some d ∧ Signed accs d) :=
    fun e => ⟨t, by unfold TokenAt; rw [e]; exact ht, fun hlt => absurd hlt (Nat.lt_irrefl _)⟩
  have notProg : ∀ j, (w j).owner = env.programId → k ≠ j := by
    rintro j hj rfl; exact env.program_ne_token (hj.symm.trans ht.1)
  have notSys : ∀ j, (w j).owner = env.systemProgram → k ≠ j := by
    rintro j hj rfl; exact env.token_ne_system (ht.1.symm.trans hj)
  have shelled : Shell env (w k) (w' k) → ∃ t', TokenAt env w' k t' ∧
      (t'.amount < t.amount → Signed accs t.owner ∨ ∃ d, t.delegate = some d ∧ Signed accs d) := by
    rintro ⟨h1, -, -, h4⟩
    rcases h4 with h4 | ⟨h5, -⟩
    · exact ⟨t, ⟨h1.trans ht.1, h4.trans ht.2⟩, fun hlt => absurd hlt (Nat.lt_irrefl _)⟩
    · exact absurd (h5.symm.trans ht.1) env.program_ne_token
  cases h with
  | stake _ _ _ _ _ _ _ _ _ _ shell => exact shelled (shell k)
  | redelegate _ _ _ _ _ _ _ _ _ _ _ _ _ _ _ _ shell => exact shelled (shell k)
  | decrease _ _ _ _ _ _ _ _ _ _ shell => exact shelled (shell k)
  | distribute _ _ _ _ _ _ _ _ _ _ _ shell => exact shelled (shell k)
  | @claim P T V M O A U K rest p m m1 n accs_eq signedO signedA eff =>
    have hkM : k ≠ M.key := notProg _ eff.mining.1
    by_cases h2 : n = 0
    · exact same (eff.zero h2 k hkM)
    · obtain ⟨w1, h3, h4⟩ := eff.transfer (by omega)
      have e1 := h3 k hkM
      obtain ⟨t', h5, h6⟩ := h4.drawn (k := k) (t := t) (by unfold TokenAt; rw [e1]; exact ht)
      refine ⟨t', h5, fun hlt => ?_⟩
      have sA : Signed accs A.key := ⟨A, by rw [accs_eq]; simp, rfl, signedA⟩
      rcases h6 hlt with h7 | h7
      · exact Or.inr ⟨_, h7, sA⟩
      · exact Or.inl (h7 ▸ sA)
  | @fill r e P T V F S K rest q w1 accs_eq signed auth good pool vault nonzero future later endBound bound pool' w1_frame
      transfer frame neS neV shell =>
    have e1 := w1_frame k (notProg _ pool.1)
    obtain ⟨t', h5, h6⟩ := transfer.drawn (k := k) (t := t) (by unfold TokenAt; rw [e1]; exact ht)
    refine ⟨t', h5, fun hlt => ?_⟩
    have sF : Signed accs F.key := ⟨F, by rw [accs_eq]; simp, rfl, signed⟩
    rcases h6 hlt with h7 | h7
    · exact Or.inr ⟨_, h7, sF⟩
    · exact Or.inl (h7 ▸ sF)
  | @close M O G A P rest p m m1 accs_eq signedO signedA good pool auth mining init miningOk owner refreshed sfo paid target
      closed credited frame ne neG =>
    exact same (frame k (notProg _ mining.1) (notSys _ target))
  | @initPool f d P T V Y A R K S rest bump accs_eq signedY signedA owned len fresh notPda vault pool' vaultBefore vault'
      payer payer' frame =>
    exact same (frame k (notProg _ owned) (notSys _ vaultBefore.2.2) (notSys _ payer.2.1))
  | initMining _ _ _ _ before _ payer _ frame =>
    exact same (frame k (notSys _ before.2.2) (notSys _ payer.2.1))

/-- Without the pool's authorities an instruction does not change the pool. -/
theorem Step.poolStill {now : Nat} {w w' : World} {accs : List AccountInfo} {i : Ix} {ret : Option Nat}
    (h : Step env now w w' accs i ret) {P : Key} {p : Pool} (hp : PoolAt env w P p) (hn : NoAuthority p accs) :
    PoolAt env w' P p ∧ (w' P).lamports = (w P).lamports := by
  obtain ⟨p', h1, h2, h3, -⟩ := h.pool hp
  refine ⟨?_, h3⟩
  cases h2 with
  | same => exact h1
  | stake hi _ signed => exact absurd signed hn.deposit
  | distribute _ signed => exact absurd signed hn.distribute
  | fill _ signed => exact absurd signed hn.fill

/-- Without the pool's authorities an instruction does not change its minings. -/
theorem Step.memberStill (hinj : env.PdaInjective) {now : Nat} {w w' : World} (hw : Wf env now w) {accs : List AccountInfo}
    {i : Ix} {ret : Option Nat} (h : Step env now w w' accs i ret) {P : Key} {p : Pool} (hp : PoolAt env w P p)
    (hn : NoAuthority p accs) (hu : Unconfused env P w accs i) {k : Key} {m : Mining} (hm : Member env w P k m) :
    w' k = w k := by
  apply Classical.byContradiction
  intro hne
  have hP0 : P ≠ 0 := (hw P).nonzero hp.1
  have hinit : InitMining env k (w k).len m := by
    rcases (miningAt_ok hw hm.1).2 with h | h
    · exact h
    · exact absurd (hm.2.symm.trans h.pool) hP0
  rcases h.miningChanged hm.1 hne with ⟨Q, q, h1, h2, h3, h4⟩ | ⟨f, d, -, hb⟩
  · have : Q ≠ P := by
      rintro rfl
      obtain rfl := PoolAt.unique hp h2
      exact hn.deposit h3
    have hQ : poolArg accs i ≠ some P := by rw [h1]; intro hh; exact this (Option.some.inj hh)
    cases h4 with
    | acting arg own owner notClose => exact this (own.symm.trans hm.2)
    | delegate arg addr actor mining own owner notClaim =>
      exact this ((hinj.mining _ _ _ _ _ _ _ addr hinit.addr).2.1.trans hm.2)
    | old arg => exact hQ (hu k m hm (Or.inl arg))
    | close arg owner => exact hQ (hu k m hm (Or.inr ⟨rfl, arg⟩))
  · exact hP0 (hm.2.symm.trans hb.pool)

theorem fresh_init (P o : Key) (b : Nat) : Fresh (Mining.init P o b) := ⟨rfl, rfl, rfl, rfl, rfl⟩

/-- What an event without the pool's authorities does to the pool and its minings. -/
theorem apply_outside (hinj : env.PdaInjective) {s : Chain} (hw : Wf env s.now s.world) {e : Event} (hv : e.Valid env s)
    {P : Key} {p : Pool} (ho : Outside env P p s e) (hp : PoolAt env s.world P p) (hl : 0 < (s.world P).lamports) :
    PoolAt env (s.apply env e).world P p ∧ (s.world P).lamports ≤ ((s.apply env e).world P).lamports ∧
      (∀ k m, Member env s.world P k m → 0 < (s.world k).lamports →
        Member env (s.apply env e).world P k m ∧ (s.world k).lamports ≤ ((s.apply env e).world k).lamports) ∧
      (∀ k m, Member env (s.apply env e).world P k m → Member env s.world P k m ∨ Fresh m) := by
  have hP0 : P ≠ 0 := (hw P).nonzero hp.1
  cases e with
  | ix accs i =>
    cases hx : exec env s.now s.world accs i with
    | error er =>
      rw [apply_ix_error hx]
      exact ⟨hp, Nat.le_refl _, fun k m hm _ => ⟨hm, Nat.le_refl _⟩, fun k m hm => Or.inl hm⟩
    | ok r =>
      obtain ⟨w', ret⟩ := r
      rw [apply_ix_ok hx]
      obtain ⟨o1, o2, o3⟩ := ho
      have hstep := step_of_exec hw hv o1 hx
      obtain ⟨g1, g2⟩ := hstep.poolStill hp o2
      have still := fun k m (hm : Member env s.world P k m) => hstep.memberStill hinj hw hp o2 o3 hm
      refine ⟨g1, Nat.le_of_eq g2.symm, fun k m hm _ => ?_, fun k m hm => ?_⟩
      · have e1 := still k m hm
        exact ⟨⟨(miningAt_congr e1).mpr hm.1, hm.2⟩, Nat.le_of_eq (by show _ = (w' k).lamports; rw [e1])⟩
      · rcases hstep.newMining hm.1 with ⟨m0, h0⟩ | ⟨-, hb⟩ | ⟨o, Q, M, Y, rest, bump, -, -, -, -, rfl, -⟩
        · left
          have hm0 : Member env s.world P k m0 := by
            refine ⟨h0, ?_⟩
            rcases hstep.mining h0 with ⟨m1, h1, h2, -⟩ | ⟨-, -, h1⟩ | ⟨f, d, rfl, hb⟩
            · obtain rfl := MiningAt.unique hm.1 h1
              exact h2.rewardPool.symm.trans hm.2
            · exfalso
              have := hm.1.2
              rw [show (⟨s.now, w'⟩ : Chain).world k = w' k from rfl, h1] at this
              cases this
            · exfalso
              cases hstep with
              | stake _ op => exact op.elim
              | @initPool f d P1 T V Y A R K S rest bump accs_eq signedY signedA owned len fresh notPda vault pool' vaultBefore
                  vault' payer payer' frame =>
                have tok : ∀ j, (s.world j).owner = env.systemProgram → k ≠ j := by
                  rintro j hj rfl; exact env.program_ne_system (h0.1.symm.trans hj)
                by_cases hk : k = P1.key
                · subst hk
                  have e1 := hm.1.2
                  rw [show (⟨s.now, w'⟩ : Chain).world P1.key = w' P1.key from rfl, pool'] at e1
                  cases e1
                · have e1 := frame k hk (tok _ vaultBefore.2.2) (tok _ payer.2.1)
                  obtain rfl := MiningAt.unique h0 ((miningAt_congr e1).mp hm.1)
                  exact hP0 (hm.2.symm.trans hb.pool)
          have e1 := still k m0 hm0
          obtain rfl := MiningAt.unique hm0.1 ((miningAt_congr e1).mp hm.1)
          exact hm0
        · exact absurd (hm.2.symm.trans hb.pool) hP0
        · exact Or.inr (fresh_init _ _ _)
  | tick d => exact ⟨hp, Nat.le_refl _, fun k m hm _ => ⟨hm, Nat.le_refl _⟩, fun k m hm => Or.inl hm⟩
  | gc j =>
    have hne : ∀ k, 0 < (s.world k).lamports → k ≠ j := by
      rintro k hk rfl; exact absurd (show (s.world k).lamports = 0 from hv) (by omega)
    have e1 : ∀ k, k ≠ j → (s.apply env (.gc j)).world k = s.world k := fun k hk => world_set_ne _ _ hk
    have e2 := e1 P (hne P hl)
    refine ⟨(poolAt_congr e2).mpr hp, Nat.le_of_eq (by rw [e2]), fun k m hm hk => ?_, fun k m hm => ?_⟩
    · have e3 := e1 k (hne k hk)
      exact ⟨⟨(miningAt_congr e3).mpr hm.1, hm.2⟩, Nat.le_of_eq (by rw [e3])⟩
    · left
      by_cases hk : k = j
      · subst hk
        have := hm.1.2
        rw [show (s.apply env (.gc k)).world k = _ from world_set_same _ _ _] at this
        cases this
      · exact ⟨(miningAt_congr (e1 k hk)).mp hm.1, hm.2⟩
  | ext w' =>
    obtain ⟨e1, -, e3, e4⟩ := hv.program_owned P hp.1
    refine ⟨⟨e1.trans hp.1, e3.trans hp.2⟩, e4, fun k m hm _ => ?_, fun k m hm => ?_⟩
    · obtain ⟨f1, -, f3, f4⟩ := hv.program_owned k hm.1.1
      exact ⟨⟨⟨f1.trans hm.1.1, f3.trans hm.1.2⟩, hm.2⟩, f4⟩
    · left
      by_cases hk : (s.world k).owner = env.programId
      · obtain ⟨f1, -, f3, f4⟩ := hv.program_owned k hk
        exact ⟨⟨hk, f3.symm.trans hm.1.2⟩, hm.2⟩
      · have := (hv.new_zero k hk hm.1.1).1
        rw [show w' k = (s.apply env (.ext w')).world k from rfl, hm.1.2] at this
        cases this

theorem Spec.Outside.clean {P : Key} {p : Pool} {s : Chain} {e : Event} (h : Outside env P p s e) : CleanEvent env s e := by
  cases e <;> first | exact h.1 | trivial

theorem runs_outside (hinj : env.PdaInjective) {P : Key} {p : Pool} {s s' : Chain} {es : List Event}
    (hr : RunsWith env (Outside env P p) s es s') : Wf env s.now s.world → PoolAt env s.world P p →
    0 < (s.world P).lamports → PoolAt env s'.world P p ∧
      (∀ k m, Member env s.world P k m → 0 < (s.world k).lamports →
        Member env s'.world P k m ∧ (s.world k).lamports ≤ (s'.world k).lamports) ∧
      (∀ k m, Member env s'.world P k m → Member env s.world P k m ∨ Fresh m) := by
  induction hr with
  | nil s => exact fun _ hp _ => ⟨hp, fun k m hm _ => ⟨hm, Nat.le_refl _⟩, fun k m hm => Or.inl hm⟩
  | cons hv hc _ ih =>
    intro hw hp hl
    obtain ⟨h1, h2, h3, h4⟩ := apply_outside hinj hw hv hc hp hl
    obtain ⟨g1, g2, g3⟩ := ih (wf_apply hw hv hc.clean) h1 (Nat.lt_of_lt_of_le hl h2)
    refine ⟨g1, fun k m hm hk => ?_, fun k m hm => ?_⟩
    · obtain ⟨a1, a2⟩ := h3 k m hm hk
      obtain ⟨b1, b2⟩ := g2 k m a1 (Nat.lt_of_lt_of_le hk a2)
      exact ⟨b1, Nat.le_trans a2 b2⟩
    · rcases g3 k m hm with h | h
      · exact h4 k m h
      · exact Or.inr h

theorem Spec.NotSignedBy.clean {o : Key} {s : Chain} {e : Event} (h : NotSignedBy env o s e) : CleanEvent env s e := by
  cases e <;> first | exact h.1 | trivial

theorem Spec.NotDrawn.clean {V : Key} {s : Chain} {e : Event} (h : NotDrawn env V s e) : CleanEvent env s e := by
  cases e <;> first | exact h.1 | trivial

/-- What an event does to a mining whose owner does not sign. -/
theorem apply_unsigned {s : Chain} (hw : Wf env s.now s.world) {e : Event} (hv : e.Valid env s) {k : Key} {m : Mining}
    (hn : NotSignedBy env m.owner s e) (hm : MiningAt env s.world k m) (ht : m.accountType = 2)
    (hl : 0 < (s.world k).lamports) :
    ∃ m', MiningAt env (s.apply env e).world k m' ∧ SameMining m m' ∧ m.unclaimed ≤ m'.unclaimed ∧
      0 < ((s.apply env e).world k).lamports ∧ claimedBy env k s e = 0 := by
  cases e with
  | ix accs i =>
    cases hx : exec env s.now s.world accs i with
    | error er =>
      rw [apply_ix_error hx]
      exact ⟨m, hm, .refl m, Nat.le_refl _, hl, by simp [claimedBy, hx]⟩
    | ok r =>
      obtain ⟨w', ret⟩ := r
      rw [apply_ix_ok hx]
      obtain ⟨m', h1, h2, h3, h4, h5⟩ := (step_of_exec hw hv hn.1 hx).keeps hm ht hn.2
      exact ⟨m', h1, h2, h3, by show 0 < (w' k).lamports; rw [h4]; exact hl, by simp [claimedBy, hx, h5]⟩
  | tick d => exact ⟨m, hm, .refl m, Nat.le_refl _, hl, rfl⟩
  | gc j =>
    have hne : k ≠ j := by rintro rfl; exact absurd (show (s.world k).lamports = 0 from hv) (by omega)
    have e1 : (s.apply env (.gc j)).world k = s.world k := world_set_ne _ _ hne
    exact ⟨m, (miningAt_congr e1).mpr hm, .refl m, Nat.le_refl _, by rw [e1]; exact hl, rfl⟩
  | ext w' =>
    obtain ⟨e1, -, e3, e4⟩ := hv.program_owned k hm.1
    exact ⟨m, ⟨e1.trans hm.1, e3.trans hm.2⟩, .refl m, Nat.le_refl _, Nat.lt_of_lt_of_le hl e4, rfl⟩

theorem runs_unsigned {o : Key} {k : Key} {s s' : Chain} {es : List Event} (hr : RunsWith env (NotSignedBy env o) s es s') :
    ∀ {m : Mining}, Wf env s.now s.world → m.owner = o → MiningAt env s.world k m → m.accountType = 2 →
    0 < (s.world k).lamports → ∃ m', MiningAt env s'.world k m' ∧ SameMining m m' ∧ m.unclaimed ≤ m'.unclaimed ∧
      totalIn env (claimedBy env k) s es = 0 := by
  induction hr with
  | nil s => exact fun _ _ hm _ _ => ⟨_, hm, .refl _, Nat.le_refl _, rfl⟩
  | cons hv hc _ ih =>
    rintro m hw rfl hm ht hl
    obtain ⟨m1, h1, h2, h3, h4, h5⟩ := apply_unsigned hw hv hc hm ht hl
    obtain ⟨m2, g1, g2, g3, g4⟩ := ih (wf_apply hw hv hc.clean) h2.owner h1 (h2.accountType.trans ht) h4
    exact ⟨m2, g1, h2.trans g2, Nat.le_trans h3 g3, by rw [totalIn, h5, g4]⟩

theorem apply_drawn {s : Chain} (hw : Wf env s.now s.world) {e : Event} (hv : e.Valid env s) {V : Key} {t : TokenAcc}
    (hn : NotDrawn env V s e) (ht : TokenAt env s.world V t) :
    ∃ t', TokenAt env (s.apply env e).world V t' ∧ t.amount ≤ t'.amount := by
  cases e with
  | ix accs i =>
    cases hx : exec env s.now s.world accs i with
    | error er => rw [apply_ix_error hx]; exact ⟨t, ht, Nat.le_refl _⟩
    | ok r =>
      obtain ⟨w', ret⟩ := r
      rw [apply_ix_ok hx]
      obtain ⟨t', h1, h2⟩ := (step_of_exec hw hv hn.1 hx).drawn ht
      refine ⟨t', h1, Nat.not_lt.mp fun hlt => ?_⟩
      obtain ⟨n1, n2⟩ := hn.2 t ht
      rcases h2 hlt with h3 | ⟨d, h3, h4⟩
      · exact n1 h3
      · exact n2 d h3 h4
  | tick d => exact ⟨t, ht, Nat.le_refl _⟩
  | gc j =>
    have e1 : (s.apply env (.gc j)).world V = s.world V := world_set_ne _ _ (Ne.symm hn)
    exact ⟨t, by unfold TokenAt; rw [e1]; exact ht, Nat.le_refl _⟩
  | ext w' =>
    obtain ⟨⟨t', h1⟩, h2⟩ := hn
    rw [TokenAt.balance ht, TokenAt.balance h1] at h2
    exact ⟨t', h1, h2⟩

theorem runs_drawn {V : Key} {s s' : Chain} {es : List Event} (hr : RunsWith env (NotDrawn env V) s es s') :
    ∀ {t : TokenAcc}, Wf env s.now s.world → TokenAt env s.world V t →
    ∃ t', TokenAt env s'.world V t' ∧ t.amount ≤ t'.amount := by
  induction hr with
  | nil s => exact fun _ ht => ⟨_, ht, Nat.le_refl _⟩
  | cons hv hc _ ih =>
    intro t hw ht
    obtain ⟨t1, h1, h2⟩ := apply_drawn hw hv hc ht
    obtain ⟨t2, g1, g2⟩ := ih (wf_apply hw hv hc.clean) h1
    exact ⟨t2, g1, Nat.le_trans h2 g2⟩

end Verif
