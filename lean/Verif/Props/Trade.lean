import Verif.Lemmas.TradeDeposit
import Verif.Lemmas.DemoIncentive
import Verif.Props.Incentive
import Verif.Props.Claims
/-!
C96: being delegated to and staking oneself.
-/

namespace Verif

open Spec

section
variable {env : Env}

/-- **C96**.  The owner of a mining that is up to date can be given stake by delegation, or deposit the same amount themselves
without a lock-up period; it is worth the same to them.  In the first history somebody deposits `a` tokens delegated to the mining
at `D`, whose owner deposits `b` tokens; in the second one they deposit the `a` tokens undelegated, and the owner deposits `a + b`.
Then the pool is the same to the last field, and so is every account except the mining at `D`, in which the same stake is split
differently.  This remains so whatever happens afterwards in both histories, and everybody is paid the same in both. -/
theorem C96_delegated {s u1 u2 t1 t2 s1 s2 : Chain} {e1 e2 f1 f2 : Event} {es es' : List Event} {P M D : Key} {a b : Nat}
    {l : LockupPeriod} {p : Pool} {y : Mining} (hre : Reachable env s) (hp : PoolAt env s.world P p)
    (hy : MiningAt env s.world D y) (hu : UpToDate s.now p.cumulative y) (hMD : M ≠ D)
    (h1 : RunsWith env (Deposits env P M D a l) s [e1] u1) (h2 : RunsWith env (Deposits env P D D b .flex) u1 [e2] t1)
    (k1 : RunsWith env (Deposits env P M M a l) s [f1] u2) (k2 : RunsWith env (Deposits env P D D (a + b) .flex) u2 [f2] t2)
    (hr1 : RunsWith env (CleanEvent env) t1 es s1) (hr2 : RunsWith env (CleanEvent env) t2 es' s2)
    (ha : Alike env (SameElsewhere env D) t1 t2 es es') :
    DelegatedInstead env a D t1.world t2.world ∧ s1.now = s2.now ∧ DelegatedInstead env a D s1.world s2.world ∧
    ∀ k, totalIn env (claimedBy env k) t1 es = totalIn env (claimedBy env k) t2 es' := by
  have clean : ∀ {P M D : Key} {a : Nat} {l : LockupPeriod} {s : Chain} {e : Event}, Deposits env P M D a l s e →
      CleanEvent env s e := by
    rintro P M D a l s e ⟨accs, o, d, rfl, -⟩
    exact trivial
  have hw := reachable_wf hre
  cases h1 with | cons v1 d1 h1 => cases h1; cases h2 with | cons v2 d2 h2 => cases h2; cases k1 with | cons v3 d3 k1 => cases k1; cases k2 with | cons v4 d4 k2 =>
    cases k2
    obtain ⟨hpda, n1, n2, hd⟩ := traded_worlds hw hp hy hu hMD v1 d1 v2 d2 v3 d3 v4 d4
    obtain ⟨c1, c2, c3⟩ := differs_runs hpda ha hr1 hr2 (wf_apply (wf_apply hw v1 (clean d1)) v2 (clean d2))
      (wf_apply (wf_apply hw v3 (clean d3)) v4 (clean d4)) (n1.trans n2.symm) hd
    exact ⟨hd, c1, c2, c3⟩

end

section Examples

open Demo

def depositsB (P M D : Key) (a : Nat) (l : LockupPeriod) (s : Chain) : Event → Bool
  | .ix accs (.depositMining a' l' o d) => decide (a' = a) && decide (l' = l) && okEvent s (.ix accs (.depositMining a' l' o d)) &&
      decide (poolArg accs (.depositMining a' l' o d) = some P) && decide (miningArg accs (.depositMining a' l' o d) = some M) &&
      decide (delegateArg accs (.depositMining a' l' o d) = some D)
  | _ => false

theorem depositsB_sound {P M D : Key} {a : Nat} {l : LockupPeriod} (s : Chain) (e : Event) (h : depositsB P M D a l s e = true) :
    e.Valid Demo.env s ∧ Deposits Demo.env P M D a l s e := by
  cases e with
  | ix accs i =>
    cases i with
    | depositMining a' l' o d =>
      simp only [depositsB, Bool.and_eq_true, decide_eq_true_eq] at h
      obtain ⟨⟨⟨⟨⟨rfl, rfl⟩, h2⟩, h3⟩, h4⟩, h5⟩ := h
      obtain ⟨r, hx⟩ := exec_of_ok h2
      exact ⟨(okEvent_sound h2).1, accs, o, d, rfl, by simp [succeeded, hx], h3, h4, h5⟩
    | _ => cases h
  | _ => cases h

def upToDateB (s : Chain) (P D : Key) : Bool := hasPool s.world P fun p => hasMining s.world D fun m =>
  decide (m.index = indexBefore p.cumulative s.now) && m.diffs.all (fun e => decide (midnight s.now < e.1)) &&
    decide (m.share + m.stakeFromOthers < 2 ^ 64)

theorem upToDateB_sound {s : Chain} {P D : Key} (h : upToDateB s P D = true) : ∃ p m, PoolAt Demo.env s.world P p ∧
    MiningAt Demo.env s.world D m ∧ UpToDate s.now p.cumulative m := by
  obtain ⟨p, hp, h⟩ := hasPool_sound h
  obtain ⟨m, hm, h⟩ := hasMining_sound h
  simp only [Bool.and_eq_true, decide_eq_true_eq, List.all_eq_true] at h
  exact ⟨p, m, hp, hm, h.1.1, h.1.2, h.2⟩

theorem allPass_elsewhere {k : Key} {s t : Chain} {es : List Event} (hc : allPass okEvent s es = true)
    (hc' : allPass okEvent t es = true) : Alike Demo.env (SameElsewhere Demo.env k) s t es es := by
  induction es generalizing s t with
  | nil => trivial
  | cons e es ih =>
    simp only [allPass, Bool.and_eq_true] at hc hc'
    refine ⟨Or.inl rfl, ?_, ih hc.2 hc'.2⟩
    cases e with
    | ix accs i =>
      obtain ⟨r, h1⟩ := exec_of_ok hc.1
      obtain ⟨r', h2⟩ := exec_of_ok hc'.1
      simp [goesThrough, succeeded, h1, h2]
    | _ => rfl

/-- User 121, who has been claiming their rewards, is the delegate. -/
def delegateClaimed : Chain := (run s0 (threeBefore ++ [claim 100 121 131])).getD s0

def afterDelegating : List Event :=
  [.tick DAY, distribute 100, claim 100 121 131, deposit 100 121 300 .oneYear 121, .tick DAY, distribute 100, withdraw 100 121 200 121,
    claim 100 120 130, .tick (5 * DAY), distribute 100, claim 100 121 131, claim 100 120 130]

/-- The hypotheses of `C96_delegated` are met: user 120 deposits 700 for three months, delegated to user 121, who deposits 300; or
user 120 does not delegate, and user 121 deposits 1000. -/
example : ∃ p y u1 u2 t1 t2 s1 s2, Reachable Demo.env delegateClaimed ∧ PoolAt Demo.env delegateClaimed.world 100 p ∧
    MiningAt Demo.env delegateClaimed.world (mine 121 100) y ∧ UpToDate delegateClaimed.now p.cumulative y ∧
    mine 120 100 ≠ mine 121 100 ∧
    RunsWith Demo.env (Deposits Demo.env 100 (mine 120 100) (mine 121 100) 700 .threeMonths) delegateClaimed
      [deposit 100 120 700 .threeMonths 121] u1 ∧
    RunsWith Demo.env (Deposits Demo.env 100 (mine 121 100) (mine 121 100) 300 .flex) u1 [deposit 100 121 300 .flex 121] t1 ∧
    RunsWith Demo.env (Deposits Demo.env 100 (mine 120 100) (mine 120 100) 700 .threeMonths) delegateClaimed
      [deposit 100 120 700 .threeMonths 120] u2 ∧
    RunsWith Demo.env (Deposits Demo.env 100 (mine 121 100) (mine 121 100) (700 + 300) .flex) u2
      [deposit 100 121 1000 .flex 121] t2 ∧
    RunsWith Demo.env (CleanEvent Demo.env) t1 afterDelegating s1 ∧ RunsWith Demo.env (CleanEvent Demo.env) t2 afterDelegating s2 ∧
    Alike Demo.env (SameElsewhere Demo.env (mine 121 100)) t1 t2 afterDelegating afterDelegating ∧
    1000 < totalIn Demo.env (claimedBy Demo.env (mine 121 100)) t1 afterDelegating := by
  obtain ⟨p, m, hp, hm, hu⟩ := upToDateB_sound (s := delegateClaimed) (P := 100) (D := mine 121 100) (by decide +kernel)
  exact ⟨p, m, _, _, _, _, _, _, after_reachable (by decide +kernel), hp, hm, hu, by decide +kernel,
    allPass_sound depositsB_sound (by decide +kernel), allPass_sound depositsB_sound (by decide +kernel),
    allPass_sound depositsB_sound (by decide +kernel), allPass_sound depositsB_sound (by decide +kernel),
    allPass_sound (c := okEvent) (fun _ _ h => okEvent_sound h) (by decide +kernel),
    allPass_sound (c := okEvent) (fun _ _ h => okEvent_sound h) (by decide +kernel),
    allPass_elsewhere (by decide +kernel) (by decide +kernel), by decide +kernel⟩

/-- C96 is false for a delegate who has not claimed: when user 120 delegates 700 tokens, user 121 is credited with rewards on them
back to the last time their mining was brought up to date, and is paid more at once than if they deposit the 700 tokens. -/
theorem C96_outdated_false : ∃ s u1 u2 t1 t2 s1 s2 p y, Reachable Demo.env s ∧ PoolAt Demo.env s.world 100 p ∧
    MiningAt Demo.env s.world (mine 121 100) y ∧
    RunsWith Demo.env (Deposits Demo.env 100 (mine 120 100) (mine 121 100) 700 .threeMonths) s
      [deposit 100 120 700 .threeMonths 121] u1 ∧
    RunsWith Demo.env (Deposits Demo.env 100 (mine 121 100) (mine 121 100) 300 .flex) u1 [deposit 100 121 300 .flex 121] t1 ∧
    RunsWith Demo.env (Deposits Demo.env 100 (mine 120 100) (mine 120 100) 700 .threeMonths) s
      [deposit 100 120 700 .threeMonths 120] u2 ∧
    RunsWith Demo.env (Deposits Demo.env 100 (mine 121 100) (mine 121 100) (700 + 300) .flex) u2
      [deposit 100 121 1000 .flex 121] t2 ∧
    RunsWith Demo.env (CleanEvent Demo.env) t1 [claim 100 121 131] s1 ∧
    RunsWith Demo.env (CleanEvent Demo.env) t2 [claim 100 121 131] s2 ∧
    totalIn Demo.env (claimedBy Demo.env (mine 121 100)) t2 [claim 100 121 131] + 100 <
      totalIn Demo.env (claimedBy Demo.env (mine 121 100)) t1 [claim 100 121 131] := by
  obtain ⟨p, hp, -⟩ := hasPool_sound (w := beforeThree.world) (k := 100) (f := fun _ => true) (by decide +kernel)
  obtain ⟨m, hm, -⟩ := hasMining_sound (w := beforeThree.world) (k := mine 121 100) (f := fun _ => true) (by decide +kernel)
  exact ⟨beforeThree, _, _, _, _, _, _, p, m, after_reachable (by decide +kernel), hp, hm,
    allPass_sound depositsB_sound (by decide +kernel), allPass_sound depositsB_sound (by decide +kernel),
    allPass_sound depositsB_sound (by decide +kernel), allPass_sound depositsB_sound (by decide +kernel),
    allPass_sound (c := okEvent) (fun _ _ h => okEvent_sound h) (by decide +kernel),
    allPass_sound (c := okEvent) (fun _ _ h => okEvent_sound h) (by decide +kernel), by decide +kernel⟩

end Examples

end Verif
