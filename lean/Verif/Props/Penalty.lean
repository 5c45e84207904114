import Verif.Lemmas.SolvencyOps
import Verif.Lemmas.DemoExec
import Verif.Props.Stake
/-!
C56: a DecreaseRewards penalty and the rewards already earned.
-/

namespace Verif

open Spec

section
variable {env : Env}

/-- C56 for minings that are up to date: a penalty does not change what the mining is owed for distributions already
recorded.  In general it never raises it, and it moves no tokens and changes nothing else (see also `C24_decrease`).
Missing for the full property: minings that are not up to date; see `C56_penalty_false`. -/
theorem C56_penalty_partial {now : Nat} {w w' : World} {accs : List AccountInfo} {n : Nat} {owner : Key}
    {ret : Option Nat} (hw : Wf env now w) (hs : RealSigners accs)
    (h : exec env now w accs (.decreaseRewards owner n) = .ok (w', ret)) :
    ∃ A P M rest p m m', accs = A :: P :: M :: rest ∧ PoolAt env w P.key p ∧ PoolAt env w' P.key p ∧
      Member env w P.key M.key m ∧ m.owner = owner ∧ Member env w' P.key M.key m' ∧
      owed m' p.cumulative ≤ owed m p.cumulative ∧
      (lastIndex 0 p.cumulative ≤ m.index → owed m' p.cumulative = owed m p.cumulative) ∧
      (∀ t, indexBefore p.cumulative t ≤ m.index → entitlement m' p.cumulative t = entitlement m p.cumulative t) ∧
      m'.unclaimed = m.unclaimed ∧ m'.index = m.index := by
  rw [exec_ok] at h
  obtain ⟨h, -⟩ := h
  simp only [process, res_bind_ok, res_pure_ok, Prod.mk.injEq] at h
  obtain ⟨w1, h, rfl, -⟩ := h
  obtain ⟨A, P, M, rest, p, m, m', rfl, hsig, hpo, hmo, hne, hl, hd, rfl⟩ := processDecreaseRewards_ok h
  have hdep : A.key ≠ 0 := hs A (by simp) hsig
  obtain ⟨hpc, hg⟩ := pool_slot (hw P.key) hpo hl.plen hl.pview hdep (Or.inl hl.auth)
  obtain ⟨hm, hmc, hmi⟩ := mining_slot hw hmo hpo hl
  have hat : MiningAt env w M.key m := ⟨hmo, hmc⟩
  obtain ⟨e1, -, e3, e4, -, -⟩ := decrease_earning hd
  have hown : m'.owner = m.owner ∧ m'.rewardPool = m.rewardPool := by
    rw [decreaseRewards_ok] at hd
    rcases hd with ⟨-, rfl⟩ | ⟨-, -, rfl⟩ <;> exact ⟨rfl, rfl⟩
  refine ⟨A, P, M, rest, p, m, m', rfl, ⟨hpo, hpc⟩, ?_, ⟨hat, hl.pool⟩, hl.owner, ⟨putMining_at hat m', hown.2.trans hl.pool⟩,
    ?_, fun hi => ?_, fun t ht => ?_, e4, e3⟩
  · unfold PoolAt
    rw [putMining_ne _ _ (Ne.symm hne)]
    exact ⟨hpo, hpc⟩
  · unfold owed pending
    rw [e3, e4]
    exact Nat.add_le_add_left (earned_le fun e _ => e1 _) _
  · rw [owed_current hg.ok.history hi, owed_current hg.ok.history (by rw [e3]; exact hi), e4]
  · rw [entitlement_consumed hg.ok.history ht, entitlement_consumed hg.ok.history (by rw [e3]; exact ht)]

end

section Examples
open Demo

/-- The hypotheses are met, with a penalty of 700 on a mining that is up to date. -/
example : ∃ s, Reachable Demo.env s ∧ okEvent s (decrease 100 120 700) = true ∧
    hasPool s.world 100 (fun p => hasMining s.world (mine 120 100) fun m =>
      decide (0 < lastIndex 0 p.cumulative ∧ lastIndex 0 p.cumulative ≤ m.index)) = true :=
  ⟨(run s0 (story ++ [claim 100 120 130])).getD s0, after_reachable (by decide +kernel), by decide +kernel, by decide +kernel⟩

end Examples

/-- C56 is false in general: a penalty takes rewards already earned, because the mining is not brought up to date before its
stake is lowered.  Here the penalty takes more than 800 tokens of what the staker had earned in two distributions. -/
theorem C56_penalty_false :
    ∃ s accs w' ret p m m', Reachable Demo.env s ∧
      exec Demo.env s.now s.world accs (.decreaseRewards 120 2000) = .ok (w', ret) ∧
      PoolAt Demo.env s.world 100 p ∧ Settled p.cumulative s.now ∧ Member Demo.env s.world 100 (Demo.mine 120 100) m ∧
      Member Demo.env w' 100 (Demo.mine 120 100) m' ∧
      owed m' p.cumulative + 10 ^ 16 * 800 < owed m p.cumulative := by
  have hok : Demo.okEvent Demo.afterStory (Demo.decrease 100 120 2000) = true := by decide +kernel
  obtain ⟨ret, hx⟩ := Demo.exec_of_ok hok
  have h1 : Demo.hasPool Demo.afterStory.world 100 (fun p => decide (∀ e ∈ p.cumulative, e.1 < Demo.afterStory.now) &&
      Demo.hasMining Demo.afterStory.world (Demo.mine 120 100) (fun m =>
      Demo.hasMining (Demo.afterStory.apply Demo.env (Demo.decrease 100 120 2000)).world (Demo.mine 120 100) (fun m' =>
        decide (m.rewardPool = 100 ∧ m'.rewardPool = 100 ∧
          owed m' p.cumulative + 10 ^ 16 * 800 < owed m p.cumulative)))) = true := by decide +kernel
  obtain ⟨p, hp, h1⟩ := Demo.hasPool_sound h1
  simp only [Bool.and_eq_true, decide_eq_true_eq] at h1
  obtain ⟨h2, h1⟩ := h1
  obtain ⟨m, hm, h1⟩ := Demo.hasMining_sound h1
  obtain ⟨m', hm', h1⟩ := Demo.hasMining_sound h1
  simp only [decide_eq_true_eq] at h1
  exact ⟨Demo.afterStory, _, _, ret, p, m, m', Demo.after_reachable (by decide +kernel), hx, hp, h2, ⟨hm, h1.1⟩,
    ⟨hm', h1.2.1⟩, h1.2.2⟩

end Verif
