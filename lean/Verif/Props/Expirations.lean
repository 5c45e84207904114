import Verif.Lemmas.Recorded
import Verif.Lemmas.DemoExec
/-!
C18: a stake's expiration is never lost.  True only as long as the tables have room.
-/

namespace Verif

open Spec

variable {env : Env}

/-- C18, restricted.  Full claim: whenever a deposit succeeds, its expiration is recorded for pool and mining.  Proved
under the condition, for each of the two tables, that it has room for the date (an existing entry for it, or fewer
entries than its capacity); without the condition the claim is false (`C18_expiration_lost_false`). -/
theorem C18_expiration_recorded_partial {now : Nat} {w w' : World} {accs : List AccountInfo} {a : Nat}
    {per : LockupPeriod} {owner delegate : Key} {ret : Option Nat} (hw : Wf env now w) (hs : RealSigners accs)
    (h : exec env now w accs (.depositMining a per owner delegate) = .ok (w', ret)) :
    ∃ P M A D rest k n p m p' m', accs = P :: M :: A :: D :: rest ∧ terms per = some (k, n) ∧
      PoolAt env w P.key p ∧ MiningAt env w M.key m ∧ PoolAt env w' P.key p' ∧ MiningAt env w' M.key m' ∧
      (HasRoom env.caps.pool p.diffs (midnight now + 86400 * n) →
        recordedAt p'.diffs (midnight now + 86400 * n) = recordedAt p.diffs (midnight now + 86400 * n) + (a * k - a) ∧
        ∃ x ∈ p'.diffs, x.1 = midnight now + 86400 * n) ∧
      (HasRoom env.caps.mining (laterThan m.diffs (midnight now)) (midnight now + 86400 * n) →
        recordedAt m'.diffs (midnight now + 86400 * n) = recordedAt m.diffs (midnight now + 86400 * n) + (a * k - a) ∧
        ∃ x ∈ m'.diffs, x.1 = midnight now + 86400 * n) := by
  rw [exec_ok] at h
  obtain ⟨h, -⟩ := h
  simp only [process, res_bind_ok, res_pure_ok, Prod.mk.injEq] at h
  obtain ⟨w1, h, rfl, -⟩ := h
  obtain ⟨P, M, A, D, p, m, d, p', m', d', hc, hd, rfl⟩ := processDepositMining_ok h
  obtain ⟨rest, hacc⟩ := hc.accs_eq
  obtain ⟨hg, hm, hdel⟩ := hc.facts hw hs
  obtain ⟨q, s, o, f, sd⟩ := deposit_same hg.ok hm hdel hd
  obtain ⟨-, -, -, he⟩ := stakeCall_world (p' := p') (m' := m') (d' := d') hw hc hs sd
  obtain ⟨k, n, g1, g2, g3⟩ := deposit_recorded hg.ok hm hd
  exact ⟨P, M, A, D, rest, k, n, p, m, p', m', hacc, g1, he.pool, he.mining, he.pool', he.mining', g2, g3⟩

namespace Demo

/-- A deposit of 10 tokens for a year on each of `n` consecutive days. -/
def daily : Nat → List Event
  | 0 => []
  | n + 1 => deposit 100 120 10 .oneYear 120 :: .tick DAY :: daily n

def manyDeposits : List Event := [initPool 100, initMining 100 120] ++ daily 50
def afterMany : Chain := (run s0 manyDeposits).getD s0

theorem afterMany_reachable : Reachable Demo.env afterMany := after_reachable (es := manyDeposits) (by decide +kernel)

/-- The hypotheses of `C18_expiration_recorded_partial`, including room in both tables, are met in a reachable state. -/
example : ∃ w', Succeeds afterStory [W 100, W (mine 120 100), S 110, W (mine 121 100)]
    (.depositMining 70 .sixMonths 120 121) w' := succeeds afterStory_reachable (by decide +kernel)
example : hasMining afterStory.world (mine 120 100) (fun m => decide (m.diffs.length < 50)) = true := by decide +kernel
example : hasPool afterStory.world 100 (fun m => decide (m.diffs.length < 365)) = true := by decide +kernel

end Demo

/-- C18 is false as stated: in a reachable state (deployed capacities, 50 earlier deposits with different expiry days) a
deposit of 10 tokens for a year succeeds, adds 60 to the weighted stake, and its expiration is not recorded in the mining,
so the mining keeps the sixfold weight on every later day while the pool's total drops to the unweighted amount. -/
theorem C18_expiration_lost_false : ∃ (s : Chain) (accs : List AccountInfo) (w' : World) (ret : Option Nat)
    (m m' : Mining), Reachable Demo.env s ∧ Demo.env.caps = { mining := 50, pool := 365, index := 1095 } ∧
      exec Demo.env s.now s.world accs (.depositMining 10 .oneYear 120 120) = .ok (w', ret) ∧
      MiningAt Demo.env s.world (Demo.mine 120 100) m ∧ MiningAt Demo.env w' (Demo.mine 120 100) m' ∧
      (∀ x ∈ m'.diffs, x.1 ≠ midnight s.now + 86400 * 365) ∧
      ∀ x, weightOn m' x = weightOn m x + 60 := by
  have hok : Demo.okEvent Demo.afterMany (Demo.deposit 100 120 10 .oneYear 120) = true := by decide +kernel
  obtain ⟨ret, hx⟩ := Demo.exec_of_ok hok
  have h : Demo.hasMining Demo.afterMany.world (Demo.mine 120 100) (fun m =>
      Demo.hasMining (Demo.afterMany.apply Demo.env (Demo.deposit 100 120 10 .oneYear 120)).world (Demo.mine 120 100)
      (fun m' => decide (∀ x ∈ m'.diffs, x.1 ≠ midnight Demo.afterMany.now + 86400 * 365) &&
        decide (m'.share = m.share + 60 ∧ m'.diffs = m.diffs))) = true := by decide +kernel
  obtain ⟨m, h1, h⟩ := Demo.hasMining_sound h
  obtain ⟨m', h2, h⟩ := Demo.hasMining_sound h
  simp only [Bool.and_eq_true, decide_eq_true_eq] at h
  refine ⟨Demo.afterMany, _, _, ret, m, m', Demo.afterMany_reachable, rfl, hx, h1, h2, h.1, fun x => ?_⟩
  simp only [weightOn, h.2.1, h.2.2]
  omega

end Verif
