import Verif.Lemmas.Income
import Verif.Lemmas.Credit
import Verif.Spec.Life
/-!
The account of a mining over its whole life.
-/

namespace Verif

open Spec

variable {env : Env}

/-- A refresh credits what is owed, up to rounding. -/
theorem CreditedAs.owed {now : Nat} {cum : SMap} (hc : History cum) (hset : Settled cum now) {m m' : Mining} (hm : MiningOk m)
    (h : CreditedAs now cum m m') :
    Spec.owed m' cum ≤ Spec.owed m cum ∧
      Spec.owed m cum ≤ Spec.owed m' cum + 10 ^ 16 * (expiredCount m (midnight now) + 1) ∧ m'.index = lastIndex 0 cum := by
  obtain ⟨m1, h1, h2, h3⟩ := h
  obtain ⟨g1, g2, g3, -⟩ := refresh_owed hc hm h1
  rw [bod_eq_midnight] at g2
  have hl := settled_index hset
  have e1 : Spec.owed m' cum = Spec.owed m1 cum := by
    rw [owed_current hc (by rw [h3, g3, hl]; exact Nat.le_refl _), owed_current hc (by rw [g3, hl]; exact Nat.le_refl _), h2]
  rw [e1]
  exact ⟨g1, Nat.le_of_lt g2, by rw [h3, g3, hl]⟩

theorem settled_of {now : Nat} {p : Pool} (hp : PoolOk now p) (hne : now ≠ midnight now) : Settled p.cumulative now := by
  intro e he
  have := hp.past e he
  have h8 : midnight now ≤ now := by unfold midnight; omega
  omega

/-- Changing the delegated stake of a mining that is up to date changes nothing of what it is owed. -/
theorem refresh_delegated {now : Nat} {cum : SMap} (hc : History cum) {x x' : Mining} (hx : MiningOk x) (n : Nat)
    (hcur : lastIndex 0 cum ≤ x.index)
    (h : ({ x with stakeFromOthers := n } : Mining).refreshRewards now cum = .ok x') :
    owed x' cum = owed x cum ∧ x'.index = lastIndex 0 cum ∧ MiningOk x' := by
  have hx1 : MiningOk ({ x with stakeFromOthers := n } : Mining) := ⟨hx.1, hx.2⟩
  obtain ⟨-, -, g3, g4, -⟩ := refresh_owed hc hx1 h
  have hb : indexBefore cum now ≤ lastIndex 0 cum := indexBefore_le_last hc now
  have hi : x.index = indexBefore cum now := Nat.le_antisymm g4 (Nat.le_trans hb hcur)
  obtain ⟨k1, k2⟩ := refresh_again hc hx1 hi h
  have hi' : x'.index = lastIndex 0 cum := by rw [g3]; exact Nat.le_antisymm hb (by rw [← hi]; exact hcur)
  refine ⟨?_, hi', (refresh_same hc hx1 h).2.1⟩
  rw [owed_current hc (Nat.le_of_eq hi'.symm), owed_current hc hcur, k1]

/-- What a successful careful instruction does to the mining at `k`: nothing, or it changes what is paid and owed by roundings
only. -/
inductive LifeStep (env : Env) (now : Nat) (w w' : World) (accs : List AccountInfo) (k : Key) (cum : SMap) (m : Mining)
    (i : Ix) (ret : Option Nat) : Prop
  | idle (same : w' k = w k) (nothing : claimedOut accs k i ret = 0)
  | active {m' : Mining} (after : MiningAt env w' k m') (same : SameMining m m') (lamports : (w' k).lamports = (w k).lamports)
      (other : i.isBudget = false) (index : m'.index ≤ lastIndex 0 cum)
      (upper : 10 ^ 16 * claimedOut accs k i ret + owed m' cum ≤ owed m cum)
      (lower : owed m cum ≤ 10 ^ 16 * claimedOut accs k i ret + owed m' cum +
        10 ^ 16 * (if refreshes i = true ∧ miningArg accs i = some k then expiredCount m (midnight now) + 1 else 0))

theorem StakeOp.facts {caps : Caps} {now : Nat} {p p' : Pool} {m m' : Mining} {d d' : Option Mining} {i : Ix}
    (h : StakeOp caps now p m d p' m' d' i) : restakes i = true ∧ refreshes i = true ∧ i.isBudget = false ∧
      ∀ accs k ret, claimedOut accs k i ret = 0 := by
  cases i <;> first | exact h.elim | exact ⟨rfl, rfl, rfl, fun _ _ _ => rfl⟩

theorem StakeAccs.args {accs : List AccountInfo} {P M A D : AccountInfo} {i : Ix} (h : StakeAccs accs P M A D i)
    (hi : restakes i = true) : poolArg accs i = some P.key ∧ miningArg accs i = some M.key ∧
      ((delegateArg accs i = some D.key) ∨ D = M) := by
  cases i <;> first
    | (cases hi; done)
    | (obtain ⟨rest, rfl⟩ := h; exact ⟨rfl, rfl, Or.inl rfl⟩)
    | (obtain ⟨rfl, rest, rfl⟩ := h; exact ⟨rfl, rfl, Or.inr rfl⟩)

/-- The delegate of a stake instruction, when it is up to date. -/
theorem StakeOp.delegate {caps : Caps} {now : Nat} {p p' : Pool} {m m' x x' : Mining} {i : Ix} (hp : PoolOk now p)
    (hm : MiningOk m) (hx : MiningOk x) (h : StakeOp caps now p m (some x) p' m' (some x') i)
    (hcur : lastIndex 0 p.cumulative ≤ x.index) :
    owed x' p.cumulative = owed x p.cumulative ∧ x'.index = lastIndex 0 p.cumulative := by
  cases i with
  | depositMining a l o dl =>
    obtain ⟨y, q, q', e1, e2, e3⟩ := (deposit_credit hp hm h).2 x rfl
    cases e1
    rw [delegateAdd_ok, e2] at e3
    obtain ⟨g1, g2, -⟩ := refresh_delegated hp.history hx _ hcur e3.2.2.1
    exact ⟨g1, g2⟩
  | withdrawMining a o dl =>
    obtain ⟨y, q, q', e1, e2, e3⟩ := (withdraw_credit hp h).2 x rfl
    cases e1
    rw [delegateSub_ok, e2] at e3
    obtain ⟨g1, g2, -⟩ := refresh_delegated hp.history hx _ hcur e3.2.2.1
    exact ⟨g1, g2⟩
  | extendStake ol nl ts b a o dl =>
    obtain ⟨x1, y, q, q', r, r', e1, e2, e3, e4, e5⟩ := (extend_credit hp hm (by rintro _ ⟨⟩; exact hx) h).2 x rfl
    cases e1
    rw [delegateSub_ok, e2] at e4
    rw [delegateAdd_ok, e3] at e5
    obtain ⟨g1, g2, g3⟩ := refresh_delegated hp.history hx _ hcur e4.2.2.1
    obtain ⟨k1, k2, -⟩ := refresh_delegated hp.history g3 _ (Nat.le_of_eq g2.symm) e5.2.2.1
    exact ⟨k1.trans g1, k2⟩
  | slash o n mu ex => obtain ⟨-, h, -⟩ := h; cases h
  | _ => exact h.elim

theorem Step.life {now : Nat} {w w' : World} {accs : List AccountInfo} {i : Ix} {ret : Option Nat}
    (h : Step env now w w' accs i ret) {P k : Key} {m : Mining} {p : Pool} (hm : MiningAt env w k m) (ht : m.accountType = 2)
    (hpool : m.rewardPool = P) (hp : PoolAt env w P p) (hc : Careful env P k now w accs i)
    (hlast : p.index = lastIndex 0 p.cumulative) : LifeStep env now w w' accs k p.cumulative m i ret := by
  have tok : ∀ j, (w j).owner = env.tokenProgram → k ≠ j := by
    rintro j hj rfl; exact env.program_ne_token (hm.1.symm.trans hj)
  have sys : ∀ j, (w j).owner = env.systemProgram → k ≠ j := by
    rintro j hj rfl; exact env.program_ne_system (hm.1.symm.trans hj)
  cases h with
  | @stake _ P1 M A D q q' m1 m1' d d' accs_eq op chk del quiet same sfo ok' sameDel eff shell =>
    obtain ⟨r1, r2, r3, r4⟩ := op.facts
    obtain ⟨a1, a2, a3⟩ := accs_eq.args r1
    rcases eff.minings hm with ⟨rfl, rfl, h1⟩ | ⟨h1, h0, rfl, y', rfl, h2⟩ | ⟨n1, n2, h1⟩
    · obtain rfl : P1.key = P := chk.inPool.symm.trans hpool
      obtain rfl := PoolAt.unique hp eff.pool
      obtain ⟨-, -, hmid⟩ := hc.own a2
      have hset := settled_of chk.good.ok (hmid r1)
      obtain ⟨g1, g2, g3⟩ := CreditedAs.owed chk.good.ok.history hset chk.miningOk
        (op.credit chk.good.ok chk.miningOk (fun x hx => (del x hx).ok))
      refine .active h1 same (shell _).2.1 r3 (Nat.le_of_eq g3) ?_ ?_
      · rw [r4]; simpa using g1
      · rw [r4, if_pos ⟨r2, a2⟩]; simpa using g2
    · have hne : D ≠ M := by rintro rfl; exact h0 h1
      have a4 : delegateArg accs i = some k := by
        rcases a3 with a3 | a3
        · rw [h1]; exact a3
        · exact absurd a3 hne
      have hmk : miningArg accs i ≠ some k := by rw [a2]; intro hh; exact h0 (Option.some.inj hh).symm
      obtain ⟨b1, b2⟩ := hc.delegated hmk (Or.inl a4)
      obtain rfl : P1.key = P := Option.some.inj (a1.symm.trans b1)
      obtain rfl := PoolAt.unique hp eff.pool
      obtain ⟨g1, g2⟩ := op.delegate chk.good.ok chk.miningOk (del _ rfl).ok (by rw [← hlast]; exact b2 _ _ hm hp)
      refine .active h2 sameDel.1 (shell _).2.1 r3 (Nat.le_of_eq g2) ?_ ?_
      · rw [r4, g1]; simp
      · rw [r4, g1, if_neg fun hh => hmk hh.2]; simp
    · exact .idle (eff.frame k (by rintro rfl; exact PoolAt.not_mining eff.pool hm) n1 n2) (r4 _ _ _)
  | @redelegate a nd P1 M A O Old New rest q q' m1 m1' od od' dn dn' accs_eq signed op chk newDel oldOk oldAt ne quiet same sfo
      ok' sameNew sameOld neP eff shell =>
    have a1 : poolArg accs (.changeDelegate a nd) = some P1.key := by rw [accs_eq]; rfl
    have a2 : miningArg accs (.changeDelegate a nd) = some M.key := by rw [accs_eq]; rfl
    have a3 : delegateArg accs (.changeDelegate a nd) = some New.key := by rw [accs_eq]; rfl
    have a4 : oldDelegateArg accs (.changeDelegate a nd) = some Old.key := by rw [accs_eq]; rfl
    have hop := op
    rw [changeDelegate_ok] at hop
    by_cases hk : k = M.key
    · subst hk
      obtain rfl := MiningAt.unique hm eff.mining
      obtain rfl : P1.key = P := chk.inPool.symm.trans hpool
      obtain rfl := PoolAt.unique hp eff.pool
      obtain ⟨g1, g2, g3, -⟩ := refresh_owed chk.good.ok.history chk.miningOk hop.1
      rw [bod_eq_midnight] at g2
      refine .active eff.mining' same (shell _).2.1 rfl ?_ ?_ ?_
      · rw [g3]; exact indexBefore_le_last chk.good.ok.history now
      · simpa [claimedOut] using g1
      · rw [if_pos ⟨rfl, a2⟩]; simpa [claimedOut] using Nat.le_of_lt g2
    · have hmk : miningArg accs (.changeDelegate a nd) ≠ some k := by
        rw [a2]; intro hh; exact hk (Option.some.inj hh).symm
      obtain ⟨-, hod, hdn⟩ := redelegate_credit op
      by_cases hk2 : k = Old.key
      · subst hk2
        obtain ⟨b1, b2⟩ := hc.delegated hmk (Or.inr a4)
        obtain rfl : P1.key = P := Option.some.inj (a1.symm.trans b1)
        obtain rfl := PoolAt.unique hp eff.pool
        obtain ⟨rfl, x', rfl, h4⟩ := eff.old.at hk hm
        obtain ⟨y, r, r', e1, e2, e3⟩ := hod _ rfl
        cases e1
        rw [delegateSub_ok, e2] at e3
        obtain ⟨g1, g2, -⟩ := refresh_delegated chk.good.ok.history (oldOk _ rfl) _ (by rw [← hlast]; exact b2 _ _ hm hp) e3.2.2.1
        refine .active h4 sameOld.1 (shell _).2.1 rfl (Nat.le_of_eq g2) ?_ ?_
        · rw [g1]; simp [claimedOut]
        · rw [g1, if_neg fun hh => hmk hh.2]; simp [claimedOut]
      · by_cases hk3 : k = New.key
        · subst hk3
          obtain ⟨b1, b2⟩ := hc.delegated hmk (Or.inl a3)
          obtain rfl : P1.key = P := Option.some.inj (a1.symm.trans b1)
          obtain rfl := PoolAt.unique hp eff.pool
          obtain ⟨rfl, x', rfl, h4⟩ := eff.new.at hk hm
          obtain ⟨y, r, r', e1, e2, e3⟩ := hdn _ rfl
          cases e1
          rw [delegateAdd_ok, e2] at e3
          obtain ⟨g1, g2, -⟩ := refresh_delegated chk.good.ok.history (newDel _ rfl).ok _ (by rw [← hlast]; exact b2 _ _ hm hp)
            e3.2.2.1
          refine .active h4 sameNew.1 (shell _).2.1 rfl (Nat.le_of_eq g2) ?_ ?_
          · rw [g1]; simp [claimedOut]
          · rw [g1, if_neg fun hh => hmk hh.2]; simp [claimedOut]
        · exact .idle (eff.frame k (by rintro rfl; exact PoolAt.not_mining eff.pool hm) hk hk2 hk3) rfl
  | @decrease o n A P1 M rest q m1 m1' accs_eq chk pool op mining mining' same ok' sfo frame shell =>
    by_cases hk : k = M.key
    · exact absurd rfl ((hc.own (by rw [accs_eq, hk]; rfl)).2.1 o n)
    · exact .idle (frame k hk) rfl
  | @claim P1 T V M O A U K rest q m1 m2 n accs_eq signedO signedA eff =>
    obtain ⟨t, htok, -⟩ := eff.userTok
    have a2 : miningArg accs .claim = some M.key := by rw [accs_eq]; rfl
    by_cases hk : k = M.key
    · subst hk
      obtain rfl := MiningAt.unique hm eff.mining
      obtain rfl : P1.key = P := eff.inPool.symm.trans hpool
      obtain rfl := PoolAt.unique hp eff.pool
      obtain ⟨g1, g2, g3, -⟩ := refresh_owed eff.good.ok.history eff.miningOk eff.refreshed
      rw [bod_eq_midnight] at g2
      obtain ⟨s, -⟩ := refresh_same eff.good.ok.history eff.miningOk eff.refreshed
      have ho : owed m2 p.cumulative = 10 ^ 16 * n + owed { m2 with unclaimed := 0 } p.cumulative := by
        have e1 : pending { m2 with unclaimed := 0 } p.cumulative = pending m2 p.cumulative := rfl
        simp only [owed, e1, eff.amount]; omega
      have hcl : claimedOut accs M.key .claim (some n) = n := by simp [claimedOut, a2]
      refine .active eff.mining' ⟨s.1, s.2, s.3, s.4, s.5⟩ eff.lamports rfl ?_ ?_ ?_
      · show m2.index ≤ _
        rw [g3]; exact indexBefore_le_last eff.good.ok.history now
      · rw [hcl, ← ho]; exact g1
      · rw [hcl, if_pos ⟨rfl, a2⟩, ← ho]; exact Nat.le_of_lt g2
    · refine .idle (eff.frame k hk (tok _ eff.vaultTok) (tok _ htok.1)) ?_
      simp only [claimedOut, a2, Option.some.injEq]
      exact if_neg (Ne.symm hk)
  | distribute _ _ _ _ pool _ _ _ _ _ frame =>
    exact .idle (frame k (by rintro rfl; exact PoolAt.not_mining pool hm)) rfl
  | @fill r e P1 T V F S K rest q w1 accs_eq signed auth good pool vault nonzero future later endBound bound pool' w1_frame
      transfer frame neS neV shell =>
    obtain ⟨t, t', ht1, -⟩ := transfer.srcTok
    obtain ⟨u, u', hu, -⟩ := transfer.dstTok
    refine .idle (frame k (by rintro rfl; exact PoolAt.not_mining pool hm) (tok _ ?_) (tok _ ?_)) rfl
    · rw [← w1_frame _ neS]; exact ht1.1
    · rw [← w1_frame _ neV]; exact hu.1
  | @close M O G A P1 rest q m1 m2 accs_eq signedO signedA good pool auth mining init miningOk owner refreshed sfo paid target
      closed credited frame ne neG =>
    by_cases hk : k = M.key
    · exact absurd rfl (hc.own (by rw [accs_eq, hk]; rfl)).1
    · exact .idle (frame k hk (sys _ target)) rfl
  | @initPool f d P1 T V Y A R K S rest bump accs_eq signedY signedA owned len fresh notPda vault pool' vaultBefore vault'
      payer payer' frame =>
    refine .idle (frame k ?_ (sys _ vaultBefore.2.2) (sys _ payer.2.1)) rfl
    rintro rfl
    rcases fresh with h1 | ⟨m', h1, h2⟩
    · rw [hm.2] at h1; cases h1
    · rw [hm.2] at h1; cases h1; exact absurd (ht.symm.trans h2.type) (by decide)
  | initMining _ _ _ _ before _ payer _ frame =>
    exact .idle (frame k (sys _ before.2.2) (sys _ payer.2.1)) rfl

theorem claimedBy_of_none {k : Key} {s : Chain} {e : Event}
    (h : ∀ accs i, e = .ix accs i → ∃ er, exec env s.now s.world accs i = .error er) : claimedBy env k s e = 0 := by
  cases e <;> try rfl
  obtain ⟨er, h⟩ := h _ _ rfl
  simp only [claimedBy, h]

theorem incomeBy_of_none {P : Key} {m : Mining} {s : Chain} {e : Event}
    (h : ∀ accs i, e = .ix accs i → ∃ er, exec env s.now s.world accs i = .error er) : incomeBy env P m s e = 0 := by
  cases e <;> try rfl
  obtain ⟨er, h⟩ := h _ _ rfl
  simp only [incomeBy, succeeded, h]
  split <;> simp

theorem PoolChange.idle {now : Nat} {w w' : World} {accs : List AccountInfo} {P : Key} {p p' : Pool} {i : Ix}
    (h : PoolChange env now w w' accs P p i p') (hi : i.isBudget = false) :
    p'.cumulative = p.cumulative ∧ p'.index = p.index ∧ ∀ m, incomeFrom accs now P p m i = 0 := by
  have h0 : ∀ m, incomeFrom accs now P p m i = 0 := by
    intro m
    have : distributedFrom accs now P p i = 0 := by cases i <;> first | rfl | cases hi
    simp [incomeFrom, this]
  cases h with
  | same other => exact ⟨rfl, rfl, h0⟩
  | stake _ quiet signed => exact ⟨quiet.cumulative, quiet.index, h0⟩
  | fill => cases hi
  | distribute => cases hi

/-- One careful event. -/
theorem event_life {P k : Key} {s : Chain} {e : Event} {m : Mining} {p p1 : Pool} (hre : Reachable env s)
    (hv : e.Valid env s) (hc : CarefulEvent env P k s e) (hm : Proper env s.world k m) (hpool : m.rewardPool = P)
    (hml : 0 < (s.world k).lamports) (hp : PoolAt env s.world P p) (hi : m.index ≤ p.index) (h3 : PoolEvent env s P p e p1)
    (hroom : p1.cumulative.length < env.caps.index) :
    ∃ m', Proper env (s.apply env e).world k m' ∧ m'.rewardPool = P ∧ 0 < ((s.apply env e).world k).lamports ∧
      m'.index ≤ p1.index ∧
      10 ^ 16 * claimedBy env k s e + owed m' p1.cumulative ≤ owed m p.cumulative + earnedBy env P k s e ∧
      owed m p.cumulative + earnedBy env P k s e ≤
        10 ^ 16 * claimedBy env k s e + owed m' p1.cumulative + 10 ^ 16 * roundedBy env k s e := by
  have hw := reachable_wf hre
  have hear : earnedBy env P k s e = incomeBy env P m s e := by simp only [earnedBy, hm.1.2]
  rw [hear]
  cases h3 with
  | same none =>
    rw [claimedBy_of_none none, incomeBy_of_none none]
    have key : Proper env (s.apply env e).world k m ∧ 0 < ((s.apply env e).world k).lamports := by
      cases e with
      | ix accs i =>
        obtain ⟨er, her⟩ := none _ _ rfl
        rw [apply_ix_error her]; exact ⟨hm, hml⟩
      | tick d => exact ⟨hm, hml⟩
      | gc j =>
        have hne : k ≠ j := by rintro rfl; exact absurd (show (s.world k).lamports = 0 from hv) (by omega)
        have e1 : (s.apply env (.gc j)).world k = s.world k := world_set_ne _ _ hne
        exact ⟨⟨(miningAt_congr e1).mpr hm.1, hm.2⟩, by rw [e1]; exact hml⟩
      | ext w' =>
        obtain ⟨e1, -, e3, e4⟩ := hv.program_owned k hm.1.1
        exact ⟨⟨⟨e1.trans hm.1.1, e3.trans hm.1.2⟩, hm.2⟩, Nat.lt_of_lt_of_le hml e4⟩
    exact ⟨m, key.1, hpool, key.2, hi, by omega, by omega⟩
  | @ix accs i w' ret _ ok change =>
    have hl := (change.history (poolAt_good hw hp).ok).1
    have hroom0 : p.cumulative.length < env.caps.index := by
      rcases hl with h1 | ⟨-, h1⟩ <;> rw [h1] at hroom
      · exact hroom
      · simp only [List.length_append] at hroom; omega
    have hlast := index_recorded hre hp hroom0
    have hsucc : succeeded env s accs i = true := by simp [succeeded, ok]
    have hinc : incomeBy env P m s (.ix accs i) = incomeFrom accs s.now P p m i := by
      simp only [incomeBy, hp.2, hsucc, if_true]
    have hcl : claimedBy env k s (.ix accs i) = claimedOut accs k i ret := by simp only [claimedBy, ok]
    rw [hinc, hcl, apply_ix_ok ok]
    cases (step_of_exec hw hv hc.1 ok).life hm.1 hm.2 hpool hp (hc.2 hsucc) hlast with
    | idle same nothing =>
      obtain ⟨j1, j2⟩ := change.income (poolAt_good hw hp).ok hlast hi hroom
      refine ⟨m, ⟨(miningAt_congr same).mpr hm.1, hm.2⟩, hpool, ?_, Nat.le_trans hi j2, ?_, ?_⟩
      · show 0 < (w' k).lamports
        rw [same]; exact hml
      · rw [nothing, j1]; omega
      · rw [nothing, j1]; omega
    | @active m' after same lamports other index upper lower =>
      obtain ⟨j1, j2, j3⟩ := change.idle other
      rw [j1, j2, j3, hlast]
      have hrd : roundedBy env k s (.ix accs i) =
          if refreshes i = true ∧ miningArg accs i = some k then expiredCount m (midnight s.now) + 1 else 0 := by
        simp only [roundedBy, hm.1.2, hsucc, true_and]
      rw [hrd]
      refine ⟨m', ⟨after, same.accountType.trans hm.2⟩, same.rewardPool.trans hpool, ?_, index, upper, lower⟩
      show 0 < (w' k).lamports
      rw [lamports]; exact hml

theorem runs_life {P k : Key} {s s' : Chain} {es : List Event} (hr : RunsWith env (CarefulEvent env P k) s es s') :
    Reachable env s → ∀ {m}, Proper env s.world k m → m.rewardPool = P → 0 < (s.world k).lamports →
    ∀ {p}, PoolAt env s.world P p → 0 < (s.world P).lamports → m.index ≤ p.index → ∀ {p'}, PoolAt env s'.world P p' →
    p'.cumulative.length < env.caps.index →
    ∃ m', MiningAt env s'.world k m' ∧ m'.index ≤ p'.index ∧
      10 ^ 16 * totalIn env (claimedBy env k) s es + owed m' p'.cumulative ≤
        owed m p.cumulative + totalIn env (earnedBy env P k) s es ∧
      owed m p.cumulative + totalIn env (earnedBy env P k) s es ≤
        10 ^ 16 * totalIn env (claimedBy env k) s es + owed m' p'.cumulative +
          10 ^ 16 * totalIn env (roundedBy env k) s es := by
  induction hr with
  | nil s =>
    intro _ m hm _ _ p hp _ hi p' hp' _
    obtain rfl := PoolAt.unique hp hp'
    exact ⟨m, hm.1, hi, by simp [totalIn], by simp [totalIn]⟩
  | @cons s s' e es hv hc hr' ih =>
    intro hre m hm hpool hml p hp hpl hi p' hp' hroom
    have hw := reachable_wf hre
    have hre' := hre.step hv hc.1
    obtain ⟨p1, h1, h2, h3⟩ := apply_pool hw hv hc.1 hp hpl
    have hlen : p1.cumulative.length ≤ p'.cumulative.length := by
      obtain ⟨q, k1, -, k2⟩ := runs_pool (reachable_wf hre') (hr'.weaken fun _ _ h => h.1) h1 h2
        (fun _ q => p1.cumulative <+: q.cumulative) (List.prefix_refl _) (by
          rintro s e q q' hw' hv hq i1 hev
          cases hev with
          | same => exact i1
          | ix ok change =>
            rcases (change.history (poolAt_good hw' hq).ok).1 with h1 | ⟨-, h1⟩
            · rw [h1]; exact i1
            · rw [h1]; exact i1.trans (List.prefix_append _ _))
      rw [PoolAt.unique hp' k1]
      exact k2.length_le
    obtain ⟨m1, g1, g2, g3, g4, g5, g6⟩ := event_life hre hv hc hm hpool hml hp hi h3 (Nat.lt_of_le_of_lt hlen hroom)
    obtain ⟨m', r1, r2, r3, r4⟩ := ih hre' g1 g2 g3 h1 h2 g4 hp' hroom
    refine ⟨m', r1, r2, ?_, ?_⟩
    · simp only [totalIn]; omega
    · simp only [totalIn]; omega

end Verif
