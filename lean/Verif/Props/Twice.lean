import Verif.Lemmas.Kept
import Verif.Lemmas.DemoIncentive
import Verif.Props.Claim
import Verif.Props.Between
/-!
C02 over histories: a second claim pays nothing, whatever has happened in between.
-/

namespace Verif

open Spec

section
variable {env : Env}

/-- C02 over histories.  Full claim: after a claim, a second claim from the same mining with no new distribution becoming visible in
between pays nothing, whatever has happened in between.  That is so if the mining has not been closed (and opened anew), neither it
nor the pool has been removed, and nobody has named it as an old delegate in another pool (`Spec.KeptEvent`); otherwise the claim is
false (`C02_reopened_false`).  Deposits, withdrawals, extensions, penalties and stake delegated to the mining in between make no
difference. -/
theorem C02_history_partial (hi : env.PdaInjective) {P k : Key} {s s' : Chain} {es : List Event} {accs accs' : List AccountInfo}
    {w w' : World} {ret ret' : Option Nat} {p p' : Pool} (hre : Reachable env s) (hs : RealSigners accs)
    (hc : NotPoolAsMining env s.world accs .claim) (h : exec env s.now s.world accs .claim = .ok (w, ret))
    (hP : poolArg accs .claim = some P) (hk : miningArg accs .claim = some k)
    (hr : RunsWith env (KeptEvent env P k) ⟨s.now, w⟩ es s') (hs' : RealSigners accs')
    (hc' : NotPoolAsMining env s'.world accs' .claim) (h' : exec env s'.now s'.world accs' .claim = .ok (w', ret'))
    (hP' : poolArg accs' .claim = some P) (hk' : miningArg accs' .claim = some k) (hp : PoolAt env w P p)
    (hp' : PoolAt env s'.world P p')
    (visible : p'.cumulative.filter (fun e => decide (e.1 < s'.now)) = p.cumulative.filter (fun e => decide (e.1 < s.now))) :
    ret' = some 0 ∧ ∀ j, j ≠ k → w' j = s'.world j := by
  have hw := reachable_wf hre
  have hre1 : Reachable env ⟨s.now, w⟩ := by
    have := hre.step (e := .ix accs .claim) hs hc
    rwa [apply_ix_ok h] at this
  have hw1 : Wf env s.now w := reachable_wf hre1
  have hw2 := wf_runs (s := ⟨s.now, w⟩) hw1 (fun _ _ h => Spec.KeptEvent.clean h) hr
  have key : ∃ m, MiningAt env w k m ∧ m.accountType = 2 ∧ m.rewardPool = P ∧ m.index = indexBefore p.cumulative s.now ∧
      m.unclaimed = 0 := by
    cases step_of_exec (i := .claim) hw hs hc h with
    | stake _ op => exact op.elim
    | @claim P1 T V M O A U K rest q m1 m2 n accs_eq _ _ eff =>
      subst accs_eq
      obtain rfl : P1.key = P := Option.some.inj hP
      obtain rfl : M.key = k := Option.some.inj hk
      obtain ⟨t, htok, -⟩ := eff.userTok
      have hf : w P1.key = s.world P1.key := by
        refine eff.frame _ (Ne.symm eff.ne) ?_ ?_
        · intro e; have := eff.pool.1; rw [e, eff.vaultTok] at this; exact env.program_ne_token this.symm
        · intro e; have := eff.pool.1; rw [e, htok.1] at this; exact env.program_ne_token this.symm
      obtain rfl := PoolAt.unique hp ((poolAt_congr hf).mpr eff.pool)
      obtain ⟨-, -, g3, -⟩ := refresh_owed eff.good.ok.history eff.miningOk eff.refreshed
      obtain ⟨sm, -⟩ := refresh_same eff.good.ok.history eff.miningOk eff.refreshed
      exact ⟨_, eff.mining', sm.accountType.trans eff.init.type, sm.rewardPool.trans eff.inPool, g3, rfl⟩
  obtain ⟨m, h1, h2, h3, h4, h5⟩ := key
  obtain ⟨m', g1, g2, g3⟩ := runs_kept hi hr hw1 h1 h2 h3 hp h4 h5 hp'
    (by rw [h4]; unfold indexBefore; rw [visible])
  exact C02_second_claim_pays_nothing hw hs hc h hP hk hw2 hs' hc' h' hP' hk' hp hp' h1 g1 g2 (g3.trans h5.symm) visible

end

/-! ### Concrete cases -/

section Examples
open Demo

/-- The same distributions of the pool 100 are visible in two states. -/
def sameVisible (s s' : Chain) : Bool :=
  hasPool s.world 100 fun p => hasPool s'.world 100 fun p' =>
    decide (p'.cumulative.filter (fun e => decide (e.1 < s'.now)) = p.cumulative.filter (fun e => decide (e.1 < s.now)))

theorem sameVisible_sound {s s' : Chain} (h : sameVisible s s' = true) :
    ∃ p p', PoolAt Demo.env s.world 100 p ∧ PoolAt Demo.env s'.world 100 p' ∧
      p'.cumulative.filter (fun e => decide (e.1 < s'.now)) = p.cumulative.filter (fun e => decide (e.1 < s.now)) := by
  obtain ⟨p, h1, h2⟩ := hasPool_sound h
  obtain ⟨p', h3, h4⟩ := hasPool_sound h2
  exact ⟨p, p', h1, h3, by simpa using h4⟩

/-- Events that keep the mining of user 121. -/
def keptB (s : Chain) (e : Event) : Bool :=
  okEvent s e && match e with
    | .ix accs i => (decide (miningArg accs i ≠ some (mine 121 100)) || decide (i ≠ .closeMining)) &&
        decide (oldDelegateArg accs i ≠ some (mine 121 100))
    | .gc j => decide (j ≠ 100) && decide (j ≠ mine 121 100)
    | _ => true

theorem keptB_sound (s : Chain) (e : Event) (h : keptB s e = true) :
    e.Valid Demo.env s ∧ KeptEvent Demo.env 100 (mine 121 100) s e := by
  simp only [keptB, Bool.and_eq_true] at h
  obtain ⟨h1, h2⟩ := h
  refine ⟨(okEvent_sound h1).1, (okEvent_sound h1).2, ?_⟩
  cases e with
  | ix accs i =>
    simp only [Bool.and_eq_true, Bool.or_eq_true, decide_eq_true_eq] at h2
    refine ⟨fun he => ?_, fun he => absurd he h2.2⟩
    rcases h2.1 with h3 | h3
    · exact absurd he h3
    · exact h3
  | gc j => simpa using h2
  | tick d => trivial
  | ext w => trivial

/-- After the claim of user 121: a penalty, a deposit, stake delegated to them and a claim of somebody else, over some hours. -/
def busyHours : List Event :=
  [.tick 3600, deposit 100 121 5 .oneYear 121, deposit 100 120 7 .flex 121, decrease 100 121 3, claim 100 120 130, .tick 3600]

theorem afterSettling_reachable : Reachable Demo.env afterSettling.1 :=
  have h : LedgerRuns Demo.env 100 s0 [] (settling.map (·.1)) afterSettling.1 afterSettling.2 := ledgerRun_eq (by decide +kernel)
  ⟨s0, _, s0_genesis, h.clean⟩

def paidOut : Chain := ⟨afterSettling.1.now, firstClaim⟩

/-- The hypotheses hold. -/
example : ∃ w' ret ret' p p', Demo.env.PdaInjective ∧ Reachable Demo.env afterSettling.1 ∧ RealSigners claimAccounts ∧
    NotPoolAsMining Demo.env afterSettling.1.world claimAccounts .claim ∧
    exec Demo.env afterSettling.1.now afterSettling.1.world claimAccounts .claim = .ok (firstClaim, ret) ∧
    poolArg claimAccounts .claim = some 100 ∧ miningArg claimAccounts .claim = some (mine 121 100) ∧
    RunsWith Demo.env (KeptEvent Demo.env 100 (mine 121 100)) paidOut busyHours (endOf paidOut busyHours) ∧
    NotPoolAsMining Demo.env (endOf paidOut busyHours).world claimAccounts .claim ∧
    exec Demo.env (endOf paidOut busyHours).now (endOf paidOut busyHours).world claimAccounts .claim = .ok (w', ret') ∧
    PoolAt Demo.env firstClaim 100 p ∧ PoolAt Demo.env (endOf paidOut busyHours).world 100 p' ∧
    p'.cumulative.filter (fun e => decide (e.1 < (endOf paidOut busyHours).now)) =
      p.cumulative.filter (fun e => decide (e.1 < paidOut.now)) := by
  have h1 := okEvent_sound (show okEvent afterSettling.1 (claim 100 121 131) = true by decide +kernel)
  obtain ⟨ret, h2⟩ := exec_of_ok (show okEvent afterSettling.1 (.ix claimAccounts .claim) = true by decide +kernel)
  have h3 := okEvent_sound (show okEvent (endOf paidOut busyHours) (claim 100 121 131) = true by decide +kernel)
  obtain ⟨ret', h4⟩ := exec_of_ok (show okEvent (endOf paidOut busyHours) (.ix claimAccounts .claim) = true by decide +kernel)
  have h5 := allPass_sound keptB_sound (show allPass keptB paidOut busyHours = true by decide +kernel)
  obtain ⟨p, p', h6, h7, h8⟩ := sameVisible_sound (show sameVisible paidOut (endOf paidOut busyHours) = true by decide +kernel)
  exact ⟨_, ret, ret', p, p', env_injective, afterSettling_reachable, h1.1, h1.2, h2, rfl, rfl, h5, h3.2, h4, h6, h7, h8⟩

/-- After the claim user 121 closes the mining and opens a new one, to which somebody else delegates their stake. -/
def reopening : List Event :=
  [close 100 121, .gc (mine 121 100), initMining 100 121, deposit 100 120 700 .flex 121]

/-- C02 is false in general: a mining that is closed after a claim and opened anew is paid again for the distributions the first
claim was about, when stake is delegated to it. -/
theorem C02_reopened_false :
    ∃ s w ret es s' w' r p p', Reachable Demo.env s ∧ RealSigners claimAccounts ∧
      NotPoolAsMining Demo.env s.world claimAccounts .claim ∧
      exec Demo.env s.now s.world claimAccounts .claim = .ok (w, some ret) ∧
      RunsWith Demo.env (CleanEvent Demo.env) ⟨s.now, w⟩ es s' ∧ NotPoolAsMining Demo.env s'.world claimAccounts .claim ∧
      exec Demo.env s'.now s'.world claimAccounts .claim = .ok (w', some r) ∧ 0 < ret ∧ 1000 < r ∧
      PoolAt Demo.env w 100 p ∧ PoolAt Demo.env s'.world 100 p' ∧
      p'.cumulative.filter (fun e => decide (e.1 < s'.now)) = p.cumulative.filter (fun e => decide (e.1 < s.now)) := by
  have h1 := okEvent_sound (show okEvent afterSettling.1 (claim 100 121 131) = true by decide +kernel)
  obtain ⟨w, ret, h2, h2'⟩ := paysB_sound (show paysB afterSettling.1 (fun r => decide (0 < r)) = true by decide +kernel)
  obtain ⟨_, h2''⟩ := exec_of_ok (show okEvent afterSettling.1 (.ix claimAccounts .claim) = true by decide +kernel)
  obtain rfl : w = firstClaim := by rw [h2] at h2''; cases h2''; rfl
  have h3 := okEvent_sound (show okEvent (endOf paidOut reopening) (claim 100 121 131) = true by decide +kernel)
  obtain ⟨w', r, h4, h4'⟩ := paysB_sound (show paysB (endOf paidOut reopening) (fun r => decide (1000 < r)) = true by decide +kernel)
  have h5 := allPass_sound (fun s e h => okEvent_sound h) (show allPass okEvent paidOut reopening = true by decide +kernel)
  obtain ⟨p, p', h6, h7, h8⟩ := sameVisible_sound (show sameVisible paidOut (endOf paidOut reopening) = true by decide +kernel)
  exact ⟨_, firstClaim, ret, _, _, w', r, p, p', afterSettling_reachable, h1.1, h1.2, h2, h5, h3.2, h4, by simpa using h2',
    by simpa using h4', h6, h7, h8⟩

end Examples

end Verif
