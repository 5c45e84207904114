import Verif.Lemmas.Deter
import Verif.Props.Aside
/-!
C109: being penalized never pays.
-/

namespace Verif

open Spec

section
variable {env : Env}

/-- C109.  Take two histories from the same state in which the same happens, except that in the first a staker is penalized any
number of times and in the second never, and that they may claim at other times.  At the end the penalized staker's stake earns, on
every day from then on, at most as much as the other's; and all they were paid and are still owed is at most what they were paid
and are owed without the penalties, up to one token for every rounding to whole tokens. -/
theorem C109_penalized {P k : Key} {s s1 s2 : Chain} {es es' : List Event} {m : Mining} {p p' : Pool} (hre : Reachable env s)
    (hm : Proper env s.world k m) (hpool : m.rewardPool = P) (hl : 0 < (s.world k).lamports)
    (hp : PoolAt env s.world P p) (hpl : 0 < (s.world P).lamports) (hidx : m.index ≤ p.index)
    (h1 : RunsWith env (CarefulOrPenalty env P k) s es s1) (h2 : RunsWith env (CarefulEvent env P k) s es' s2)
    (hu : UpToAffairs env k s s es es') (hp' : PoolAt env s2.world P p') (hroom : p'.cumulative.length < env.caps.index) :
    s1.now = s2.now ∧ PoolAt env s1.world P p' ∧
      ∃ m1 m2, MiningAt env s1.world k m1 ∧ MiningAt env s2.world k m2 ∧
        (∀ x, midnight s2.now ≤ x → earningOn m1 x ≤ earningOn m2 x) ∧
        totalIn env (earnedBy env P k) s es ≤ totalIn env (earnedBy env P k) s es' ∧
        10 ^ 16 * totalIn env (claimedBy env k) s es + owed m1 p'.cumulative ≤
          10 ^ 16 * totalIn env (claimedBy env k) s es' + owed m2 p'.cumulative +
            10 ^ 16 * totalIn env (roundedBy env k) s es' := by
  have hw := reachable_wf hre
  obtain ⟨k1, k2, k3, k4⟩ := weaker_runs (P := P) (isPda_of_proper hre hm) hu h1 h2 hw hw rfl (beside_refl hm.1 hl) hm hp hpl
    (fun a b ha hb => by rw [MiningAt.unique ha hb]; exact .refl _ _)
  have hq := beside_pool k2.symm hp'
  obtain ⟨m1, a1, -, a3⟩ := runs_penalized h1 hre hm hpool hl hp hpl hidx hq hroom
  obtain ⟨m2, b1, -, -, b4⟩ := runs_life h2 hre hm hpool hl hp hpl hidx hp' hroom
  refine ⟨k1, hq, m1, m2, a1, b1, fun x hx => (k3 _ _ a1 b1).earning (by rw [k1]; exact hx), k4, ?_⟩
  omega

end

/-! ### Concrete cases -/

section Examples
open Demo

def penaltyOnB (k : Key) : Event → Bool
  | .ix accs (.decreaseRewards o n) => decide (miningArg accs (.decreaseRewards o n) = some k)
  | _ => false

def carefulOrPenaltyB (P k : Key) (s : Chain) (e : Event) : Bool := okEvent s e && (carefulB P k s e || penaltyOnB k e)

theorem carefulOrPenaltyB_sound {P k : Key} (s : Chain) (e : Event) (h : carefulOrPenaltyB P k s e = true) :
    e.Valid Demo.env s ∧ CarefulOrPenalty Demo.env P k s e := by
  simp only [carefulOrPenaltyB, Bool.and_eq_true, Bool.or_eq_true] at h
  refine ⟨(okEvent_sound h.1).1, ?_⟩
  rcases h with ⟨h1, h2 | h2⟩
  · exact Or.inl (carefulB_sound (okEvent_sound h1).2 h2)
  · refine Or.inr ⟨(okEvent_sound h1).2, ?_⟩
    unfold penaltyOnB at h2
    split at h2
    · exact of_decide_eq_true (p := miningArg _ _ = _) h2
    · cases h2

/-- User 120 stakes, locks and delegates to user 121; in the first history they are penalized three times and claim in between. -/
def misbehaving : List (Where × Event) :=
  [(.both, claim 100 121 131), (.both, deposit 100 120 500 .oneYear 121), (.both, .tick DAY), (.both, distribute 100),
    (.one, decrease 100 120 700), (.both, deposit 100 120 300 .flex 120), (.both, .tick DAY), (.both, distribute 100),
    (.one, claim 100 120 130), (.both, claim 100 121 131), (.both, .tick (40 * DAY)), (.both, distribute 100),
    (.one, decrease 100 120 100), (.one, decrease 100 120 900), (.two, claim 100 120 130), (.both, withdraw 100 120 100 120),
    (.both, .tick DAY), (.both, distribute 100), (.both, claim 100 121 131), (.both, claim 100 120 130)]

/-- The hypotheses of `C109_penalized` are met; the penalized staker is paid less. -/
example : ∃ s1 s2, Reachable Demo.env ((run s0 joining).getD s0) ∧
    hasMining ((run s0 joining).getD s0).world (mine 120 100)
      (fun m => decide (m.accountType = 2) && decide (m.rewardPool = 100) && decide (m.index = 0)) = true ∧
    0 < (((run s0 joining).getD s0).world (mine 120 100)).lamports ∧
    hasPool ((run s0 joining).getD s0).world 100 (fun _ => true) = true ∧
    0 < (((run s0 joining).getD s0).world 100).lamports ∧
    RunsWith Demo.env (CarefulOrPenalty Demo.env 100 (mine 120 100)) ((run s0 joining).getD s0) (firstList misbehaving) s1 ∧
    RunsWith Demo.env (CarefulEvent Demo.env 100 (mine 120 100)) ((run s0 joining).getD s0) (secondList misbehaving) s2 ∧
    UpToAffairs Demo.env (mine 120 100) ((run s0 joining).getD s0) ((run s0 joining).getD s0) (firstList misbehaving)
      (secondList misbehaving) ∧
    hasPool s2.world 100 (fun p => decide (p.cumulative.length < Demo.env.caps.index)) = true ∧
    totalIn Demo.env (claimedBy Demo.env (mine 120 100)) ((run s0 joining).getD s0) (firstList misbehaving) +
      totalIn Demo.env (roundedBy Demo.env (mine 120 100)) ((run s0 joining).getD s0) (secondList misbehaving) <
      totalIn Demo.env (claimedBy Demo.env (mine 120 100)) ((run s0 joining).getD s0) (secondList misbehaving) :=
  ⟨_, _, after_reachable (by decide +kernel), by decide +kernel, by decide +kernel, by decide +kernel, by decide +kernel,
    allPass_sound carefulOrPenaltyB_sound (by decide +kernel), allPass_sound carefulOkB_sound (by decide +kernel),
    upToAffairsB_sound (by decide +kernel), by decide +kernel, by decide +kernel⟩

end Examples

end Verif
