import Verif.Lemmas.Ledger
import Verif.Lemmas.DemoLedger
/-!
C51: the program's data refine a ledger of stakes.
-/

namespace Verif

open Spec

section
variable {env : Env}

/-- C51. In every history in which the deposit authority only reports operations on real stakes (`Spec.LedgerRuns`), on
every day from today on: each mining's weighted stake is the sum over its stakes of amount times current multiplier, its
delegated stake is the sum of the amounts delegated to it by others, the pool's total is the sum of both over all stakes,
every stake's mining and delegate still exist, and the pool's total is exactly what its minings together earn with, for
any list of accounts without repetition that contains all stakers and delegates.

Partial: slashed stakes must not be delegated (`C51_false_slash` shows that this cannot be dropped), DecreaseRewards is not
among the reported operations, and a new expiration date needs room in the tables. -/
theorem C51_ledger_partial (hi : env.PdaInjective) {P : Key} {s0 s : Chain} {es : List Event} {L : Ledger} {p : Pool}
    (hg : Genesis env s0) (hr : LedgerRuns env P s0 [] es s L) (hp : PoolAt env s.world P p) {x : Nat}
    (hx : midnight s.now ≤ x) :
    (∀ k m, Member env s.world P k m → weightOn m x = L.own k x ∧ (m.stakeFromOthers : Int) = L.lentTo k) ∧
    totalOn p x = L.all x ∧
    (∀ y ∈ L, 0 < y.amount → (∃ m, Member env s.world P y.mining m) ∧ ∃ m, Member env s.world P y.delegate m) ∧
    ∀ ks : List Key, ks.Nodup → (∀ y ∈ L, 0 < y.amount → y.mining ∈ ks ∧ y.delegate ∈ ks) →
      (earningTotal env s.world P x ks : Int) = totalOn p x := by
  have hw : Wf env s.now s.world := reachable_wf ⟨s0, es, hg, hr.clean⟩
  have hb := ledger_booked hi ((hw P).nonzero hp.1) hg hr
  exact ⟨fun k m hk => ⟨hb.weight k m hk x hx, hb.lent k m hk⟩, hb.total p hp x hx, hb.known,
    fun ks h1 h2 => hb.earning hp hx h1 h2⟩

end

/-- A history with all kinds of operations: the hypotheses hold, and three stakes remain. -/
example : ∃ p, Demo.env.PdaInjective ∧ Genesis Demo.env Demo.s0 ∧
    LedgerRuns Demo.env 100 Demo.s0 [] (Demo.ledgerStory.map (·.1)) Demo.afterLedger.1 Demo.afterLedger.2 ∧
    PoolAt Demo.env Demo.afterLedger.1.world 100 p ∧ Demo.afterLedger.2.length = 3 ∧
    totalOn p (midnight Demo.afterLedger.1.now) = 150 + 250 * 4 + 500 * 6 := by
  have h : Demo.hasPool Demo.afterLedger.1.world 100 (fun p =>
    decide (totalOn p (midnight Demo.afterLedger.1.now) = 150 + 250 * 4 + 500 * 6)) = true := by decide +kernel
  obtain ⟨p, h1, h2⟩ := Demo.hasPool_sound h
  exact ⟨p, Demo.env_injective, Demo.s0_genesis, Demo.ledgerRun_eq (by decide +kernel), h1, by decide +kernel,
    by simpa using h2⟩

/-- The claim is false if a delegated stake may be slashed: 500 tokens are staked without multiplier and delegated to
another mining, and then slashed completely.  No stake is left, but the delegate keeps the 500 as delegated stake, and the
pool keeps them in its total. -/
theorem C51_false_slash : ∃ (s : Chain) (es : List Event) (y : StakeEntry) (accs : List AccountInfo) (w' : World)
    (ret : Option Nat) (m : Mining) (p : Pool),
    LedgerRuns Demo.env 100 Demo.s0 [] es s [y] ∧ y.amount = 500 ∧ y.times = 1 ∧ y.delegate = Demo.mine 121 100 ∧
    y.mining = Demo.mine 120 100 ∧
    exec Demo.env s.now s.world accs (.slash 120 500 500 none) = .ok (w', ret) ∧
    Member Demo.env w' 100 (Demo.mine 121 100) m ∧ m.stakeFromOthers = 500 ∧
    PoolAt Demo.env w' 100 p ∧ totalOn p (midnight s.now) = 500 := by
  let st : List (Event × Nat) := [(Demo.initPool 100, 0), (Demo.initMining 100 120, 0), (Demo.initMining 100 121, 0),
    (Demo.deposit 100 120 500 .flex 121, 0)]
  have hr := Demo.ledgerRun_eq (P := 100) (es := st) (by decide +kernel)
  have hL : ((Demo.ledgerRun 100 Demo.s0 [] st).getD (Demo.s0, [])).2 =
      [⟨Demo.mine 120 100, Demo.mine 121 100, 500, 1, midnight Demo.s0.now + 86400 * 5⟩] := by decide +kernel
  rw [hL] at hr
  have hok : Demo.okEvent ((Demo.ledgerRun 100 Demo.s0 [] st).getD (Demo.s0, [])).1 (Demo.slash 100 120 500 500 none) =
      true := by decide +kernel
  obtain ⟨ret, hx⟩ := Demo.exec_of_ok hok
  have h : Demo.memberB ((((Demo.ledgerRun 100 Demo.s0 [] st).getD (Demo.s0, [])).1).apply Demo.env
      (Demo.slash 100 120 500 500 none)).world 100 (Demo.mine 121 100) (fun m => decide (m.stakeFromOthers = 500)) = true := by
    decide +kernel
  have g : Demo.hasPool ((((Demo.ledgerRun 100 Demo.s0 [] st).getD (Demo.s0, [])).1).apply Demo.env
      (Demo.slash 100 120 500 500 none)).world 100 (fun p =>
        decide (totalOn p (midnight ((Demo.ledgerRun 100 Demo.s0 [] st).getD (Demo.s0, [])).1.now) = 500)) = true := by
    decide +kernel
  obtain ⟨m, h1, h2⟩ := Demo.memberB_sound h
  obtain ⟨p, g1, g2⟩ := Demo.hasPool_sound g
  exact ⟨_, _, _, _, _, ret, m, p, hr, rfl, rfl, rfl, rfl, hx, h1, by simpa using h2, g1, by simpa using g2⟩

/-- The claim is false with DecreaseRewards: it lowers the mining's weighted stake (here from 3000 to 2000), but not the
pool's total, so that 1000 in the pool's total belong to nobody and their share of every distribution is lost. -/
theorem C51_false_penalty : ∃ (s : Chain) (es : List Event) (y : StakeEntry) (accs : List AccountInfo) (w' : World)
    (ret : Option Nat) (m : Mining) (p : Pool),
    LedgerRuns Demo.env 100 Demo.s0 [] es s [y] ∧ y.worth (midnight s.now) = 3000 ∧ y.mining = Demo.mine 120 100 ∧
    exec Demo.env s.now s.world accs (.decreaseRewards 120 1000) = .ok (w', ret) ∧
    Member Demo.env w' 100 (Demo.mine 120 100) m ∧ weightOn m (midnight s.now) = 2000 ∧
    PoolAt Demo.env w' 100 p ∧ totalOn p (midnight s.now) = 3000 := by
  let st : List (Event × Nat) := [(Demo.initPool 100, 0), (Demo.initMining 100 120, 0),
    (Demo.deposit 100 120 500 .oneYear 120, 0)]
  have hr := Demo.ledgerRun_eq (P := 100) (es := st) (by decide +kernel)
  have hL : ((Demo.ledgerRun 100 Demo.s0 [] st).getD (Demo.s0, [])).2 =
      [⟨Demo.mine 120 100, Demo.mine 120 100, 500, 6, midnight Demo.s0.now + 86400 * 365⟩] := by decide +kernel
  rw [hL] at hr
  have hok : Demo.okEvent ((Demo.ledgerRun 100 Demo.s0 [] st).getD (Demo.s0, [])).1 (Demo.decrease 100 120 1000) =
      true := by decide +kernel
  obtain ⟨ret, hx⟩ := Demo.exec_of_ok hok
  have h : Demo.memberB ((((Demo.ledgerRun 100 Demo.s0 [] st).getD (Demo.s0, [])).1).apply Demo.env
      (Demo.decrease 100 120 1000)).world 100 (Demo.mine 120 100) (fun m =>
        decide (weightOn m (midnight ((Demo.ledgerRun 100 Demo.s0 [] st).getD (Demo.s0, [])).1.now) = 2000)) = true := by
    decide +kernel
  have g : Demo.hasPool ((((Demo.ledgerRun 100 Demo.s0 [] st).getD (Demo.s0, [])).1).apply Demo.env
      (Demo.decrease 100 120 1000)).world 100 (fun p =>
        decide (totalOn p (midnight ((Demo.ledgerRun 100 Demo.s0 [] st).getD (Demo.s0, [])).1.now) = 3000)) = true := by
    decide +kernel
  have hy : StakeEntry.worth ⟨Demo.mine 120 100, Demo.mine 120 100, 500, 6, midnight Demo.s0.now + 86400 * 365⟩
      (midnight ((Demo.ledgerRun 100 Demo.s0 [] st).getD (Demo.s0, [])).1.now) = 3000 := by decide +kernel
  obtain ⟨m, h1, h2⟩ := Demo.memberB_sound h
  obtain ⟨p, g1, g2⟩ := Demo.hasPool_sound g
  exact ⟨_, _, _, _, _, ret, m, p, hr, hy, rfl, hx, h1, by simpa using h2, g1, by simpa using g2⟩

end Verif
