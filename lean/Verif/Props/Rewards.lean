import Verif.Lemmas.Credit
import Verif.Lemmas.DemoExec
import Verif.Spec.Rewards
/-!
Rewards: exact formula (C04), refreshing more often (C05), no rewards for days before the stake existed (C06, C07),
keeping what was earned (C08).
-/

namespace Verif

open Spec

variable {env : Env}

/-- C04, the method.  For every ordered history of distributions, every set of pending expirations and every time: the
credit `c` of a refresh is the entitlement in whole tokens, rounded down at most once per expired lock date plus once; the
stake that expired is gone, later expirations stay. -/
theorem C04_refresh_formula {cum : SMap} (hc : History cum) {now : Nat} {m m' : Mining} (hm : MiningOk m)
    (h : m.refreshRewards now cum = .ok m') :
    CreditedExactly now cum m m' ∧ dueBy m.diffs (midnight now) ≤ m.share ∧
    m' = { m with index := m'.index, unclaimed := m'.unclaimed, share := m.share - dueBy m.diffs (midnight now),
                  diffs := laterThan m.diffs (midnight now) } := by
  obtain ⟨c, rfl, h1, h2, h3, h4, h5, h6⟩ := refresh_ok hc hm.sorted h
  rw [bod_eq_midnight] at *
  exact ⟨⟨c, rfl, rfl, h5, h6⟩, h1, rfl⟩

theorem CreditedAs.exact {cum : SMap} (hc : History cum) {now : Nat} {m m' : Mining} (hm : MiningOk m)
    (h : CreditedAs now cum m m') : CreditedExactly now cum m m' := by
  obtain ⟨m1, h1, h2, h3⟩ := h
  obtain ⟨⟨c, g1, g2, g3⟩, -⟩ := C04_refresh_formula hc hm h1
  exact ⟨c, h2.trans g1, h3.trans g2, g3⟩

/-- C04, the instructions.  Deposit, Withdraw, ExtendStake, Slash and ChangeDelegate credit to the acting mining exactly
its entitlement at the stake it had before the instruction (for Claim see `C01_claim_exact`). -/
theorem C04_credited_by_instruction {now : Nat} {w w' : World} {accs : List AccountInfo} {i : Ix} {ret : Option Nat}
    {P M : Key} (hw : Wf env now w) (hs : RealSigners accs) (hclean : NotPoolAsMining env w accs i)
    (h : exec env now w accs i = .ok (w', ret)) (ha : acting accs i = some (P, M)) :
    ∃ p m m', PoolAt env w P p ∧ MiningAt env w M m ∧ MiningAt env w' M m' ∧ CreditedExactly now p.cumulative m m' := by
  cases step_of_exec hw hs hclean h with
  | @stake i P1 M1 A1 D1 p p' m m' d d' accs_eq op chk del quiet same sfo ok' sameDel eff shell =>
    have hk : P1.key = P ∧ M1.key = M := by
      cases i <;> first | exact op.elim |
        (first | obtain ⟨rest, rfl⟩ := accs_eq | obtain ⟨_, rest, rfl⟩ := accs_eq
         simpa [acting] using ha)
    obtain ⟨rfl, rfl⟩ := hk
    exact ⟨p, m, m', eff.pool, eff.mining, eff.mining', CreditedAs.exact chk.good.ok.history chk.miningOk
      (op.credit chk.good.ok chk.miningOk (fun x hx => (del x hx).ok))⟩
  | @redelegate a nd P1 M1 A O Old New rest p p' m m' od od' dn dn' accs_eq signed op chk newDel oldOk oldAt ne quiet same
      sfo ok' sameNew sameOld neP eff shell =>
    subst accs_eq
    simp only [acting, Option.some.injEq, Prod.mk.injEq] at ha
    obtain ⟨rfl, rfl⟩ := ha
    exact ⟨p, m, m', eff.pool, eff.mining, eff.mining', CreditedAs.exact chk.good.ok.history chk.miningOk
      (redelegate_credit op).1⟩
  | _ => simp [acting] at ha

/-- C05. Refreshing at `t1` and again at `t2` leaves the same mining as a single refresh at `t2`, except that it credits
at most as much, and at most one token less. -/
theorem C05_refresh_twice {cum : SMap} (hc : History cum) {t1 t2 : Nat} (ht : t1 ≤ t2) {m m1 m2 : Mining}
    (hm : MiningOk m) (h1 : m.refreshRewards t1 cum = .ok m1) (h2 : m.refreshRewards t2 cum = .ok m2) :
    ∃ m12, m1.refreshRewards t2 cum = .ok m12 ∧ m12 = { m2 with unclaimed := m12.unclaimed } ∧
      m12.unclaimed ≤ m2.unclaimed ∧ m2.unclaimed ≤ m12.unclaimed + 1 :=
  refresh_twice hc ht hm h1 h2

/-- C05 at one time: refreshing twice is the same as once. -/
theorem C05_refresh_idempotent {cum : SMap} (hc : History cum) {t : Nat} {m m1 : Mining} (hm : MiningOk m)
    (h1 : m.refreshRewards t cum = .ok m1) : m1.refreshRewards t cum = .ok m1 := by
  obtain ⟨m12, g1, g2, g3, g4⟩ := refresh_twice hc (Nat.le_refl t) hm h1 h1
  obtain ⟨-, o1, -⟩ := refresh_same hc hm h1
  obtain ⟨-, -, k, -⟩ := refresh_owed hc hm h1
  obtain ⟨e1, -⟩ := refresh_again hc o1 k g1
  rw [g1, g2, e1]

/-- C06, what the code guarantees.  Full claim: an operation on one's own stake never changes what the mining is owed for
distributions already recorded.  It holds, up to rounding down to whole tokens of what is credited, whenever all recorded
distributions are dated before now, i.e. always except when an instruction executes in the same second as the midnight
with which the day's distribution is dated (`C06_own_stake_false`). -/
theorem C06_own_stake_partial {now : Nat} {w w' : World} {accs : List AccountInfo} {i : Ix} {ret : Option Nat}
    {P M : Key} (hw : Wf env now w) (hs : RealSigners accs) (hclean : NotPoolAsMining env w accs i)
    (h : exec env now w accs i = .ok (w', ret)) (ha : acting accs i = some (P, M)) :
    ∃ p m m', PoolAt env w P p ∧ MiningAt env w M m ∧ MiningAt env w' M m' ∧
      (Settled p.cumulative now → owed m' p.cumulative ≤ owed m p.cumulative ∧
        owed m p.cumulative < owed m' p.cumulative + 10 ^ 16 * (expiredCount m (midnight now) + 1)) ∧
      (now ≠ midnight now → Settled p.cumulative now) := by
  obtain ⟨p, m, m', h1, h2, h3, c, h4, h5, h6, h7⟩ := C04_credited_by_instruction hw hs hclean h ha
  have hp : PoolOk now p := by
    rcases (hw P).content h1.1 with e | ⟨q, e, g⟩ | ⟨q, e, -⟩
    · rw [h1.2] at e; cases e
    · rw [h1.2] at e; cases e; exact g.ok
    · rw [h1.2] at e; cases e
  refine ⟨p, m, m', h1, h2, h3, ?_, ?_⟩
  · intro hset
    have hl := settled_index hset
    have e1 : owed m' p.cumulative = 10 ^ 16 * m'.unclaimed := owed_current hp.history (by rw [h5, hl]; exact Nat.le_refl _)
    have e2 : pending m p.cumulative = entitlement m p.cumulative now := by
      unfold pending entitlement
      rw [List.filter_eq_self.mpr]
      intro e he; simpa using hset e he
    rw [e1, h4]
    unfold owed
    rw [e2]
    constructor
    · rw [Nat.mul_add]; omega
    · simp only [Nat.mul_add] at h7 ⊢
      omega
  · intro hne e he
    have := hp.past e he
    have h8 : midnight now ≤ now := by unfold midnight; omega
    omega

/-- C07 for Deposit, what the code does.  Full claim: delegating never increases what the delegate is owed for recorded
distributions.  What the delegate is owed grows by the deposited amount times the index growth since the delegate was
last brought up to date (short of that by rounding); so the claim holds exactly for delegates that are up to date, and is
false otherwise (`C07_delegated_stake_false`). -/
theorem C07_deposit_partial {now : Nat} {w w' : World} {accs : List AccountInfo} {a : Nat} {l : LockupPeriod}
    {o dl : Key} {ret : Option Nat} (hw : Wf env now w) (hs : RealSigners accs)
    (h : exec env now w accs (.depositMining a l o dl) = .ok (w', ret)) :
    ∃ P M A D rest p, accs = P :: M :: A :: D :: rest ∧ PoolAt env w P.key p ∧
      (D.key ≠ M.key → ∀ x, MiningAt env w D.key x → ∃ x', MiningAt env w' D.key x' ∧
        owed x' p.cumulative ≤ owed x p.cumulative + a * (lastIndex 0 p.cumulative - x.index) ∧
        owed x p.cumulative + a * (lastIndex 0 p.cumulative - x.index) <
          owed x' p.cumulative + 10 ^ 16 * (expiredCount x (midnight now) + 1) ∧
        (lastIndex 0 p.cumulative ≤ x.index → owed x' p.cumulative ≤ owed x p.cumulative)) := by
  have hstep := step_of_exec hw hs (by exact trivial) h
  cases hstep with
  | @stake i P M A D p p' m m' d d' accs_eq op chk del quiet same sfo ok' sameDel eff shell =>
    obtain ⟨rest, rfl⟩ := accs_eq
    refine ⟨P, M, A, D, rest, p, rfl, eff.pool, fun hne x hx => ?_⟩
    obtain ⟨rfl, x', rfl, hx'⟩ := eff.delegateAt hne hx
    obtain ⟨-, hd⟩ := deposit_credit chk.good.ok chk.miningOk op
    obtain ⟨y, q, q', e1, e2, e3⟩ := hd x rfl
    cases e1
    obtain ⟨-, -, -, k1, k2⟩ := delegateAdd_owed (by rw [e2]; exact chk.good.ok.history) (del x rfl).ok e3
    rw [e2, bod_eq_midnight] at *
    refine ⟨x', hx', k1, k2 chk.good.ok.past, fun hle => ?_⟩
    rw [Nat.sub_eq_zero_of_le hle] at k1
    simpa using k1

/-- C07 for ChangeDelegate (the new delegate), as for Deposit. -/
theorem C07_change_delegate_partial {now : Nat} {w w' : World} {accs : List AccountInfo} {a : Nat} {nd : Key}
    {ret : Option Nat} (hw : Wf env now w) (hs : RealSigners accs)
    (hclean : NotPoolAsMining env w accs (.changeDelegate a nd))
    (h : exec env now w accs (.changeDelegate a nd) = .ok (w', ret)) :
    ∃ P M A O Old New rest p, accs = P :: M :: A :: O :: Old :: New :: rest ∧ PoolAt env w P.key p ∧
      (New.key ≠ M.key → ∀ x, MiningAt env w New.key x → ∃ x', MiningAt env w' New.key x' ∧
        owed x' p.cumulative ≤ owed x p.cumulative + a * (lastIndex 0 p.cumulative - x.index) ∧
        owed x p.cumulative + a * (lastIndex 0 p.cumulative - x.index) <
          owed x' p.cumulative + 10 ^ 16 * (expiredCount x (midnight now) + 1) ∧
        (lastIndex 0 p.cumulative ≤ x.index → owed x' p.cumulative ≤ owed x p.cumulative)) := by
  cases step_of_exec hw hs hclean h with
  | stake _ op => exact op.elim
  | @redelegate _ _ P M A O Old New rest p p' m m' od od' dn dn' accs_eq signed op chk newDel oldOk oldAt ne quiet same
      sfo ok' sameNew sameOld neP eff shell =>
    subst accs_eq
    refine ⟨P, M, A, O, Old, New, rest, p, rfl, eff.pool, fun hne x hx => ?_⟩
    obtain ⟨rfl, x', rfl, hx'⟩ := eff.new.at hne hx
    obtain ⟨-, -, hd⟩ := redelegate_credit op
    obtain ⟨y, q, q', e1, e2, e3⟩ := hd x rfl
    cases e1
    obtain ⟨-, -, -, k1, k2⟩ := delegateAdd_owed (by rw [e2]; exact chk.good.ok.history) (newDel x rfl).ok e3
    rw [e2, bod_eq_midnight] at *
    refine ⟨x', hx', k1, k2 chk.good.ok.past, fun hle => ?_⟩
    rw [Nat.sub_eq_zero_of_le hle] at k1
    simpa using k1

/-- C07 and C08 for ExtendStake.  The delegate is first relieved of the base stake `b` (this brings it up to date, but
without the rewards of `b` since it was last up to date) and then given `b + a`.  If all recorded distributions are dated
before now, it is owed no more than before (C07 holds), and less by `b` times the index growth since it was last up to
date (C08 fails unless it is up to date, see `C08_removed_stake_false`). -/
theorem C08_extend_partial {now : Nat} {w w' : World} {accs : List AccountInfo} {ol nl : LockupPeriod} {ts b a : Nat}
    {o dl : Key} {ret : Option Nat} (hw : Wf env now w) (hs : RealSigners accs)
    (h : exec env now w accs (.extendStake ol nl ts b a o dl) = .ok (w', ret)) :
    ∃ P M A D rest p, accs = P :: M :: A :: D :: rest ∧ PoolAt env w P.key p ∧
      (D.key ≠ M.key → Settled p.cumulative now → ∀ x, MiningAt env w D.key x → ∃ x', MiningAt env w' D.key x' ∧
        owed x' p.cumulative + b * (lastIndex 0 p.cumulative - x.index) ≤ owed x p.cumulative ∧
        owed x p.cumulative < owed x' p.cumulative + b * (lastIndex 0 p.cumulative - x.index) +
          10 ^ 16 * (expiredCount x (midnight now) + 1)) := by
  have hstep := step_of_exec hw hs (by exact trivial) h
  cases hstep with
  | @stake i P M A D p p' m m' d d' accs_eq op chk del quiet same sfo ok' sameDel eff shell =>
    obtain ⟨rest, rfl⟩ := accs_eq
    refine ⟨P, M, A, D, rest, p, rfl, eff.pool, fun hne hset x hx => ?_⟩
    obtain ⟨rfl, x', rfl, hx'⟩ := eff.delegateAt hne hx
    have hok := (del x rfl).ok
    obtain ⟨-, hd⟩ := extend_credit chk.good.ok chk.miningOk (by rintro y ⟨⟩; exact hok) op
    obtain ⟨x1, y, q, q', r, r', e1, e2, e3, e4, e5⟩ := hd x rfl
    cases e1
    have hq : History q.cumulative := by rw [e2]; exact chk.good.ok.history
    have hr : History r.cumulative := by rw [e3]; exact chk.good.ok.history
    have hx1 : MiningOk x1 := by
      rw [delegateSub_ok] at e4
      exact (refresh_same hq (m := { x with stakeFromOthers := x.stakeFromOthers - b }) ⟨hok.1, hok.2⟩ e4.2.2.1).2.1
    have hl := settled_index hset
    obtain ⟨-, s1, -, s3, s4, s5⟩ := delegateSub_owed hq hok e4
    obtain ⟨-, t1, -, -, -⟩ := delegateAdd_owed hr hx1 e5
    have hu : x'.unclaimed = x1.unclaimed := by
      rw [delegateAdd_ok] at e5
      have : ({ x1 with stakeFromOthers := x1.stakeFromOthers + (b + a) } : Mining).index =
        indexBefore r.cumulative now := by simp only; rw [s1, e2, e3]
      exact (refresh_again hr (m := { x1 with stakeFromOthers := x1.stakeFromOthers + (b + a) }) ⟨hx1.1, hx1.2⟩ this
        e5.2.2.1).1
    have o1 : owed x1 p.cumulative = 10 ^ 16 * x1.unclaimed :=
      owed_current chk.good.ok.history (by rw [s1, e2, hl]; exact Nat.le_refl _)
    have o2 : owed x' p.cumulative = 10 ^ 16 * x'.unclaimed :=
      owed_current chk.good.ok.history (by rw [t1, e3, hl]; exact Nat.le_refl _)
    have e6 : owed x' p.cumulative = owed x1 p.cumulative := by rw [o1, o2, hu]
    rw [e2, bod_eq_midnight] at *
    exact ⟨x', hx', by rw [e6]; exact s5 chk.good.ok.past, by rw [e6]; exact s4⟩

/-- C08 for Withdraw, what the code does.  Full claim: withdrawing never decreases what the delegate is owed for recorded
distributions.  It decreases by the withdrawn amount times the index growth since the delegate was last brought up to
date, so the claim holds (up to rounding) exactly for delegates that are up to date, and is false otherwise
(`C08_removed_stake_false`). -/
theorem C08_withdraw_partial {now : Nat} {w w' : World} {accs : List AccountInfo} {a : Nat}
    {o dl : Key} {ret : Option Nat} (hw : Wf env now w) (hs : RealSigners accs)
    (h : exec env now w accs (.withdrawMining a o dl) = .ok (w', ret)) :
    ∃ P M A D rest p, accs = P :: M :: A :: D :: rest ∧ PoolAt env w P.key p ∧
      (D.key ≠ M.key → ∀ x, MiningAt env w D.key x → ∃ x', MiningAt env w' D.key x' ∧
        owed x' p.cumulative + a * (lastIndex 0 p.cumulative - x.index) ≤ owed x p.cumulative ∧
        owed x p.cumulative < owed x' p.cumulative + a * (lastIndex 0 p.cumulative - x.index) +
          10 ^ 16 * (expiredCount x (midnight now) + 1)) := by
  have hstep := step_of_exec hw hs (by exact trivial) h
  cases hstep with
  | @stake i P M A D p p' m m' d d' accs_eq op chk del quiet same sfo ok' sameDel eff shell =>
    obtain ⟨rest, rfl⟩ := accs_eq
    refine ⟨P, M, A, D, rest, p, rfl, eff.pool, fun hne x hx => ?_⟩
    obtain ⟨rfl, x', rfl, hx'⟩ := eff.delegateAt hne hx
    obtain ⟨-, hd⟩ := withdraw_credit chk.good.ok op
    obtain ⟨y, q, q', e1, e2, e3⟩ := hd x rfl
    cases e1
    obtain ⟨-, -, -, -, k1, k2⟩ := delegateSub_owed (by rw [e2]; exact chk.good.ok.history) (del x rfl).ok e3
    rw [e2, bod_eq_midnight] at *
    exact ⟨x', hx', k2 chk.good.ok.past, k1⟩

/-- C08 for ChangeDelegate (the old delegate), as for Withdraw. -/
theorem C08_change_delegate_partial {now : Nat} {w w' : World} {accs : List AccountInfo} {a : Nat} {nd : Key}
    {ret : Option Nat} (hw : Wf env now w) (hs : RealSigners accs)
    (hclean : NotPoolAsMining env w accs (.changeDelegate a nd))
    (h : exec env now w accs (.changeDelegate a nd) = .ok (w', ret)) :
    ∃ P M A O Old New rest p, accs = P :: M :: A :: O :: Old :: New :: rest ∧ PoolAt env w P.key p ∧
      (Old.key ≠ M.key → ∀ x, MiningAt env w Old.key x → ∃ x', MiningAt env w' Old.key x' ∧
        owed x' p.cumulative + a * (lastIndex 0 p.cumulative - x.index) ≤ owed x p.cumulative ∧
        owed x p.cumulative < owed x' p.cumulative + a * (lastIndex 0 p.cumulative - x.index) +
          10 ^ 16 * (expiredCount x (midnight now) + 1)) := by
  cases step_of_exec hw hs hclean h with
  | stake _ op => exact op.elim
  | @redelegate _ _ P M A O Old New rest p p' m m' od od' dn dn' accs_eq signed op chk newDel oldOk oldAt ne quiet same
      sfo ok' sameNew sameOld neP eff shell =>
    subst accs_eq
    refine ⟨P, M, A, O, Old, New, rest, p, rfl, eff.pool, fun hne x hx => ?_⟩
    obtain ⟨rfl, x', rfl, hx'⟩ := eff.old.at hne hx
    obtain ⟨-, hd, -⟩ := redelegate_credit op
    obtain ⟨y, q, q', e1, e2, e3⟩ := hd x rfl
    cases e1
    obtain ⟨-, -, -, -, k1, k2⟩ := delegateSub_owed (by rw [e2]; exact chk.good.ok.history) (oldOk x rfl) e3
    rw [e2, bod_eq_midnight] at *
    exact ⟨x', hx', k2 chk.good.ok.past, k1⟩

namespace Demo

/-- Hypotheses of the theorems above are met: the second user's mining, with delegated stake and two distributions to
consume, deposits, withdraws, extends; the first user changes delegate. -/
example : ∃ w', Succeeds afterStory [W 100, W (mine 120 100), S 110, W (mine 121 100)]
    (.depositMining 70 .sixMonths 120 121) w' := succeeds afterStory_reachable (by decide +kernel)

example : ∃ w', Succeeds afterStory [W 100, W (mine 120 100), S 110, W (mine 121 100)]
    (.withdrawMining 70 120 121) w' := succeeds afterStory_reachable (by decide +kernel)

example : ∃ w', Succeeds afterStory [W 100, W (mine 120 100), S 110, W (mine 121 100)]
    (.extendStake .oneYear .oneYear day0 500 70 120 121) w' := succeeds afterStory_reachable (by decide +kernel)

example : ∃ w', Succeeds afterStory [W 100, W (mine 120 100), S 110, S 120, W (mine 121 100), W (mine 120 100)]
    (.changeDelegate 500 120) w' := succeeds afterStory_reachable (by decide +kernel)

/-- A refresh with an expired lock between two distributions, for `C04_refresh_formula` and `C05_refresh_twice`. -/
def hist : SMap := [(86400, 3 * 10 ^ 16), (172800, 5 * 10 ^ 16), (259200, 5 * 10 ^ 16 + 7)]

example : History hist := ⟨by unfold Sorted; decide +kernel, by decide +kernel, by decide +kernel⟩

example : (({ Mining.init 100 120 255 with share := 30, stakeFromOthers := 4, diffs := [(172800, 25)] } : Mining
    ).refreshRewards 300000 hist).toOption = some { Mining.init 100 120 255 with
      share := 5, stakeFromOthers := 4, diffs := [], unclaimed := 120, index := 5 * 10 ^ 16 + 7 } := by decide +kernel

end Demo

/-- C06 is false in general: right at midnight, in the second in which the day's distribution was made, a deposit
(instruction 1) raises what the depositor is owed for that already recorded distribution. -/
theorem C06_own_stake_false :
    ∃ s accs w' ret a l o dl M p m m', Reachable Demo.env s ∧
      exec Demo.env s.now s.world accs (.depositMining a l o dl) = .ok (w', ret) ∧
      acting accs (.depositMining a l o dl) = some (100, M) ∧
      PoolAt Demo.env s.world 100 p ∧ MiningAt Demo.env s.world M m ∧ MiningAt Demo.env w' M m' ∧
      owed m p.cumulative + 10 ^ 16 * 1000 < owed m' p.cumulative := by
  let s := (Demo.run Demo.s0 (Demo.story.take 7 ++ [.tick (86400 - 100), Demo.distribute 100])).getD Demo.s0
  have hr : Reachable Demo.env s := Demo.after_reachable (by decide +kernel)
  have hok : Demo.okEvent s (Demo.deposit 100 121 1000000 .flex 121) = true := by decide +kernel
  obtain ⟨ret, hx⟩ := Demo.exec_of_ok hok
  have h1 : Demo.hasPool s.world 100 (fun p => Demo.hasMining s.world (Demo.mine 121 100) (fun m =>
      Demo.hasMining (s.apply Demo.env (Demo.deposit 100 121 1000000 .flex 121)).world (Demo.mine 121 100) (fun m' =>
        decide (owed m p.cumulative + 10 ^ 16 * 1000 < owed m' p.cumulative)))) = true := by decide +kernel
  obtain ⟨p, hp, h1⟩ := Demo.hasPool_sound h1
  obtain ⟨m, hm, h1⟩ := Demo.hasMining_sound h1
  obtain ⟨m', hm', h1⟩ := Demo.hasMining_sound h1
  exact ⟨s, _, _, ret, _, _, _, _, _, p, m, m', hr, hx, rfl, hp, hm, hm', by simpa using h1⟩

/-- C07 is false in general: a deposit delegated to a mining that has not been brought up to date since the last
distributions raises what the delegate is owed for those distributions. -/
theorem C07_delegated_stake_false :
    ∃ s accs w' ret a l o dl D p x x', Reachable Demo.env s ∧
      exec Demo.env s.now s.world accs (.depositMining a l o dl) = .ok (w', ret) ∧
      (accs[0]?.map (·.key) = some 100 ∧ accs[3]?.map (·.key) = some D ∧ accs[1]?.map (·.key) ≠ some D) ∧
      PoolAt Demo.env s.world 100 p ∧ Settled p.cumulative s.now ∧
      MiningAt Demo.env s.world D x ∧ MiningAt Demo.env w' D x' ∧
      owed x p.cumulative + 10 ^ 16 * 1000 < owed x' p.cumulative := by
  have hok : Demo.okEvent Demo.afterStory (Demo.deposit 100 120 1000000 .flex 121) = true := by decide +kernel
  obtain ⟨ret, hx⟩ := Demo.exec_of_ok hok
  have h1 : Demo.hasPool Demo.afterStory.world 100 (fun p => decide (∀ e ∈ p.cumulative, e.1 < Demo.afterStory.now) &&
      Demo.hasMining Demo.afterStory.world (Demo.mine 121 100) (fun m =>
      Demo.hasMining (Demo.afterStory.apply Demo.env (Demo.deposit 100 120 1000000 .flex 121)).world (Demo.mine 121 100)
        (fun m' => decide (owed m p.cumulative + 10 ^ 16 * 1000 < owed m' p.cumulative)))) = true := by decide +kernel
  obtain ⟨p, hp, h1⟩ := Demo.hasPool_sound h1
  simp only [Bool.and_eq_true, decide_eq_true_eq] at h1
  obtain ⟨h0, h1⟩ := h1
  obtain ⟨m, hm, h1⟩ := Demo.hasMining_sound h1
  obtain ⟨m', hm', h1⟩ := Demo.hasMining_sound h1
  exact ⟨Demo.afterStory, _, _, ret, _, _, _, _, _, p, m, m', Demo.afterStory_reachable, hx,
    ⟨rfl, rfl, by decide⟩, hp, h0, hm, hm', by simpa using h1⟩

/-- C08 is false in general: withdrawing the stake delegated to a mining that has not been brought up to date takes away
what that stake earned for the delegate. -/
theorem C08_removed_stake_false :
    ∃ s accs w' ret a o dl D p x x', Reachable Demo.env s ∧
      exec Demo.env s.now s.world accs (.withdrawMining a o dl) = .ok (w', ret) ∧
      (accs[0]?.map (·.key) = some 100 ∧ accs[3]?.map (·.key) = some D ∧ accs[1]?.map (·.key) ≠ some D) ∧
      PoolAt Demo.env s.world 100 p ∧ Settled p.cumulative s.now ∧
      MiningAt Demo.env s.world D x ∧ MiningAt Demo.env w' D x' ∧
      owed x' p.cumulative + 10 ^ 16 * 200 < owed x p.cumulative := by
  have hok : Demo.okEvent Demo.afterStory (Demo.withdraw 100 120 500 121) = true := by decide +kernel
  obtain ⟨ret, hx⟩ := Demo.exec_of_ok hok
  have h1 : Demo.hasPool Demo.afterStory.world 100 (fun p => decide (∀ e ∈ p.cumulative, e.1 < Demo.afterStory.now) &&
      Demo.hasMining Demo.afterStory.world (Demo.mine 121 100) (fun m =>
      Demo.hasMining (Demo.afterStory.apply Demo.env (Demo.withdraw 100 120 500 121)).world (Demo.mine 121 100)
        (fun m' => decide (owed m' p.cumulative + 10 ^ 16 * 200 < owed m p.cumulative)))) = true := by decide +kernel
  obtain ⟨p, hp, h1⟩ := Demo.hasPool_sound h1
  simp only [Bool.and_eq_true, decide_eq_true_eq] at h1
  obtain ⟨h0, h1⟩ := h1
  obtain ⟨m, hm, h1⟩ := Demo.hasMining_sound h1
  obtain ⟨m', hm', h1⟩ := Demo.hasMining_sound h1
  exact ⟨Demo.afterStory, _, _, ret, _, _, _, _, p, m, m', Demo.afterStory_reachable, hx,
    ⟨rfl, rfl, by decide⟩, hp, h0, hm, hm', by simpa using h1⟩

end Verif
