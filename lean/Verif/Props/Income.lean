import Verif.Lemmas.Income
import Verif.Lemmas.DemoExec
/-!
C61: what a staker earns while they do nothing.
-/

namespace Verif

open Spec

section
variable {env : Env}

/-- C61: over any history (whatever other stakers, the authorities and outside programs do) in which no instruction is
allowed to write to a mining, the mining stays as it is, and what it is owed grows exactly by its part of every
distribution: the tokens distributed per unit of stake, rounded down to 1/10^16, times the stake the mining earns with on
that day.  So nothing others do can take away what was earned, and only the pool's total stake matters for what is earned
next.  The history of the pool must not have become full (`C14_recorded_false`).
`hidx`: the mining has not consumed an index beyond the pool's (it can have done so only through another pool's index). -/
theorem C61_income {P k : Key} {s s' : Chain} {es : List Event} {m : Mining} {p p' : Pool} (hre : Reachable env s)
    (hr : RunsWith env (fun s e => CleanEvent env s e ∧ Spares k e) s es s') (hm : MiningAt env s.world k m)
    (hml : 0 < (s.world k).lamports) (hp : PoolAt env s.world P p) (hpl : 0 < (s.world P).lamports)
    (hidx : m.index ≤ p.index) (hp' : PoolAt env s'.world P p') (hroom : p'.cumulative.length < env.caps.index) :
    MiningAt env s'.world k m ∧ owed m p'.cumulative = owed m p.cumulative + totalIn env (incomeBy env P m) s es :=
  runs_income hr hre hm hml hp hpl hidx hp' hroom

end

section Examples
open Demo

/-- What happens after `afterStory` while user 120 does nothing: others deposit, claim, withdraw, the vault is filled and
three distributions are made. -/
def others : List Event :=
  [fill 100 500 (day0 + 20 * DAY), .tick DAY, distribute 100, claim 100 121 131, distribute 100,
    deposit 100 121 2000 .threeMonths 121, withdraw 100 121 500 121, .tick DAY, distribute 100, .tick DAY, distribute 100]

def sparesB (k : Key) (es : List Event) : Bool := es.all fun e => match e with
  | .ix accs _ => accs.all fun a => decide (a.key ≠ k) || !a.isWritable
  | _ => true

theorem sparesB_sound {C : Chain → Event → Prop} {k : Key} {s s' : Chain} {es : List Event}
    (h : RunsWith Demo.env C s es s') (hs : sparesB k es = true) :
    RunsWith Demo.env (fun s e => C s e ∧ Spares k e) s es s' := by
  induction h with
  | nil => exact .nil _
  | @cons s s' e es hv hc _ ih =>
    simp only [sparesB, List.all_cons, Bool.and_eq_true] at hs
    refine .cons hv ⟨hc, ?_⟩ (ih hs.2)
    cases e with
    | ix accs i =>
      intro a ha hk
      have := List.all_eq_true.mp hs.1 a ha
      simpa [hk] using this
    | _ => trivial

example : ∃ s', RunsWith Demo.env (fun s e => CleanEvent Demo.env s e ∧ Spares (mine 120 100) e) afterStory others s' ∧
    hasPool s'.world 100 (fun p => decide (p.cumulative.length < Demo.env.caps.index)) = true := by
  refine ⟨(run afterStory others).getD afterStory, sparesB_sound (run_sound ?_) (by decide +kernel), by decide +kernel⟩
  have h : (run afterStory others).isSome = true := by decide +kernel
  cases hr : run afterStory others with
  | none => rw [hr] at h; cases h
  | some x => rfl

/-- User 120 then earns, although the stake of others changes, more than 600 tokens. -/
example : hasMining afterStory.world (mine 120 100) (fun m => hasPool afterStory.world 100 fun p =>
    decide (0 < (afterStory.world (mine 120 100)).lamports ∧ 0 < (afterStory.world 100).lamports ∧ m.index ≤ p.index ∧
      6 * 10 ^ 18 ≤ totalIn Demo.env (incomeBy Demo.env 100 m) afterStory others)) = true := by
  decide +kernel

end Examples

end Verif
