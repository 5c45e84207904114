import Verif.Lemmas.Credited
import Verif.Lemmas.DemoExec
/-!
Rewards once credited to a mining are paid out or stay credited (C124).
-/

namespace Verif

open Spec

section
variable {env : Env}

/-- C124, one instruction.  After any instruction of anybody, every mining is still there, with the same owner and pool, and has
at least the rewards credited to it before, less what the instruction paid from it; only a mining without credited rewards may
be closed.  So no deposit, withdrawal, extension, penalty, change of delegate, … takes credited rewards away. -/
theorem C124_instruction {now : Nat} {w w' : World} {accs : List AccountInfo} {i : Ix} {ret : Option Nat}
    (hw : Wf env now w) (hs : RealSigners accs) (hclean : NotPoolAsMining env w accs i)
    (h : exec env now w accs i = .ok (w', ret)) {k : Key} {m : Mining} (hm : MiningAt env w k m) (ht : m.accountType = 2) :
    (∃ m', MiningAt env w' k m' ∧ SameIdentity m m' ∧ m.unclaimed ≤ claimedOut accs k i ret + m'.unclaimed) ∨
      (i = .closeMining ∧ miningArg accs i = some k ∧ m.unclaimed = 0) := by
  rcases (step_of_exec hw hs hclean h).credited hm ht with ⟨m', h1, h2, h3, -⟩ | h1
  · exact Or.inl ⟨m', h1, h2.identity, h3⟩
  · exact Or.inr h1

/-- C124, histories.  At the end of any history, whoever does what in it, the rewards that were credited to a mining at its
beginning have been paid by claims from this mining or are still credited to it (both in parts, if others were credited
meanwhile). -/
theorem C124_history {k : Key} {m : Mining} {s s' : Chain} {es : List Event} (hw : Wf env s.now s.world)
    (hr : CleanRun env s es s') (hm : MiningAt env s.world k m) (ht : m.accountType = 2) (hl : 0 < (s.world k).lamports) :
    m.unclaimed ≤ totalIn env (claimedBy env k) s es ∨
      ∃ m', MiningAt env s'.world k m' ∧ SameIdentity m m' ∧
        m.unclaimed ≤ totalIn env (claimedBy env k) s es + m'.unclaimed := by
  rcases runs_credited hr hw hm ht hl with h | ⟨m', h1, h2, h3⟩
  · exact Or.inl h
  · exact Or.inr ⟨m', h1, h2.identity, h3⟩

/-- C124, what counts as paid.  A Claim from the mining at `k` moves exactly the amount counted from the vault it names to the
token account it names, which belongs to the owner of the mining. -/
theorem C124_paid {now : Nat} {w w' : World} {accs : List AccountInfo} {ret : Option Nat}
    (hw : Wf env now w) (hs : RealSigners accs) (hclean : NotPoolAsMining env w accs .claim)
    (h : exec env now w accs .claim = .ok (w', ret)) {k : Key} {m : Mining} (hm : MiningAt env w k m)
    (hk : miningArg accs .claim = some k) :
    ∃ V U t, accs[2]?.map (·.key) = some V ∧ accs[6]?.map (·.key) = some U ∧ TokenAt env w U t ∧ t.owner = m.owner ∧
      TokensMoved w w' V U (claimedOut accs k .claim ret) := by
  cases step_of_exec hw hs hclean h with
  | @claim P1 T V M O A U K rest q m1 m2 n accs_eq signedO signedA eff =>
    have a2 : miningArg accs .claim = some M.key := by rw [accs_eq]; rfl
    obtain rfl : M.key = k := Option.some.inj (a2.symm.trans hk)
    obtain rfl := MiningAt.unique hm eff.mining
    obtain ⟨t, ht, ho⟩ := eff.userTok
    have hcl : claimedOut accs M.key .claim (some n) = n := by simp [claimedOut, a2]
    rw [hcl]
    exact ⟨V.key, U.key, t, by rw [accs_eq]; rfl, by rw [accs_eq]; rfl, ht, ho.trans eff.owner.symm, eff.moved⟩
  | stake _ op => exact op.elim

end

/-! ### Concrete cases -/

section Examples
open Demo

/-- The first story, after which the second staker takes part of their stake back, by which rewards are credited to them. -/
def rewarded : Chain := (run s0 (story ++ [withdraw 100 121 10 121])).getD s0

theorem rewarded_reachable : Reachable Demo.env rewarded := after_reachable (by decide +kernel)

/-- `C124_instruction` is about this withdrawal by a staker with credited rewards. -/
example : ∃ m w', Succeeds rewarded [W 100, W (mine 121 100), S 110, W (mine 121 100)] (.withdrawMining 300 121 121) w' ∧
    MiningAt Demo.env rewarded.world (mine 121 100) m ∧ m.accountType = 2 ∧ 0 < m.unclaimed := by
  obtain ⟨m, hm, h⟩ := hasMining_sound (f := fun m => decide (m.accountType = 2 ∧ 0 < m.unclaimed))
    (show hasMining rewarded.world (mine 121 100) _ = true by decide +kernel)
  simp only [decide_eq_true_eq] at h
  obtain ⟨w', hx⟩ := succeeds rewarded_reachable (show okEvent rewarded (withdraw 100 121 300 121) = true by decide +kernel)
  exact ⟨m, w', hx, hm, h.1, h.2⟩

/-- `C124_paid` is about this claim. -/
example : ∃ m w', Succeeds rewarded [R 100, R 101, W (vaultOf 100 101), W (mine 121 100), S 121, S 110, W 131, R 2] .claim w' ∧
    MiningAt Demo.env rewarded.world (mine 121 100) m ∧ 0 < m.unclaimed := by
  obtain ⟨m, hm, h⟩ := hasMining_sound (f := fun m => decide (0 < m.unclaimed))
    (show hasMining rewarded.world (mine 121 100) _ = true by decide +kernel)
  obtain ⟨w', hx⟩ := succeeds rewarded_reachable (show okEvent rewarded (claim 100 121 131) = true by decide +kernel)
  exact ⟨m, w', hx, hm, of_decide_eq_true h⟩

/-- `C124_history` is about this history, in which the staker withdraws, is slashed, claims and deposits again. -/
example : ∃ m s', Wf Demo.env rewarded.now rewarded.world ∧ MiningAt Demo.env rewarded.world (mine 121 100) m ∧
    m.accountType = 2 ∧ 0 < m.unclaimed ∧ 0 < (rewarded.world (mine 121 100)).lamports ∧
    CleanRun Demo.env rewarded [withdraw 100 121 300 121, slash 100 121 10 10 none, .tick DAY, distribute 100,
      claim 100 121 131, deposit 100 121 70 .flex 121] s' := by
  obtain ⟨m, hm, h⟩ := hasMining_sound (f := fun m => decide (m.accountType = 2 ∧ 0 < m.unclaimed))
    (show hasMining rewarded.world (mine 121 100) _ = true by decide +kernel)
  simp only [decide_eq_true_eq] at h
  obtain ⟨s', hr⟩ := some_run (s := rewarded) (es := [withdraw 100 121 300 121, slash 100 121 10 10 none, .tick DAY,
    distribute 100, claim 100 121 131, deposit 100 121 70 .flex 121]) (by decide +kernel)
  exact ⟨m, s', reachable_wf rewarded_reachable, hm, h.1, h.2, by decide +kernel, hr⟩

end Examples

end Verif
