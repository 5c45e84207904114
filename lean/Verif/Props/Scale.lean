import Verif.Lemmas.ScaleRun
import Verif.Lemmas.DemoIncentive
import Verif.Props.Life
/-!
C102: only the proportions of the stakes matter.
-/

namespace Verif

open Spec

section
variable {env : Env} {c : Nat}

/-- C102, the stakes.  Two histories, starting with nothing, with the same events (in which the same instructions succeed), except
that in the second all amounts of stake - of deposits, withdrawals, extensions, redelegations, slashes and penalties - are `c`
times as large.  In the end the same pools and the same minings exist, every stake, every scheduled expiration and every total is
`c` times as large, and everything else is the same, except for the rewards. -/
theorem C102_stakes (hc : 0 < c) {es es' : List Event} {s t s' t' : Chain} (hs : Genesis env s) (ht : Genesis env t)
    (hnow : s.now = t.now) (h1 : RunsWith env (CleanEvent env) s es s') (h2 : RunsWith env (CleanEvent env) t es' t')
    (hal : Alike env (TimesEvent c) s t es es') : TimesWorld env c s'.world t'.world :=
  (runs_times hc h1 h2 hal hnow (wf_genesis hs) (wf_genesis ht) (times_genesis hs ht)).1

/-- C102, the rewards.  Two histories with the same events as above, starting with states in which the same pools and minings
exist, with `c` times the stake in the second.  What the mining at `k` has been paid and is still owed, beyond what it was owed at
the beginning, is the same in both, up to roundings: in the second it is at most one token for every rounding in the first more,
and at most one token for every rounding in the second, and 10^(-16) tokens for every distribution and every unit of stake, less. -/
theorem C102_rewards (hc : 0 < c) {P k : Key} {es es' : List Event} {s t s' t' : Chain} (hs : Reachable env s)
    (ht : Reachable env t) (hnow : s.now = t.now) (hst : TimesWorld env c s.world t.world)
    (h1 : RunsWith env (CarefulEvent env P k) s es s') (h2 : RunsWith env (CarefulEvent env P k) t es' t')
    (hal : Alike env (TimesEvent c) s t es es') {m n : Mining} (hm : Proper env s.world k m) (hn : MiningAt env t.world k n)
    (hpool : m.rewardPool = P) (hml : 0 < (s.world k).lamports) (hnl : 0 < (t.world k).lamports) {p q p' q' : Pool}
    (hp : PoolAt env s.world P p) (hq : PoolAt env t.world P q) (hpl : 0 < (s.world P).lamports)
    (hql : 0 < (t.world P).lamports) (hi : m.index ≤ p.index) (hj : n.index ≤ q.index) (hp' : PoolAt env s'.world P p')
    (hq' : PoolAt env t'.world P q') (hroom : p'.cumulative.length < env.caps.index) :
    ∃ m' n', MiningAt env s'.world k m' ∧ MiningAt env t'.world k n' ∧ TimesStake c m' n' ∧
      10 ^ 16 * totalIn env (claimedBy env k) t es' + owed n' q'.cumulative + owed m p.cumulative ≤
        10 ^ 16 * totalIn env (claimedBy env k) s es + owed m' p'.cumulative + owed n q.cumulative +
          10 ^ 16 * totalIn env (roundedBy env k) s es ∧
      10 ^ 16 * totalIn env (claimedBy env k) s es + owed m' p'.cumulative + owed n q.cumulative ≤
        10 ^ 16 * totalIn env (claimedBy env k) t es' + owed n' q'.cumulative + owed m p.cumulative +
          10 ^ 16 * totalIn env (roundedBy env k) t es' + c * totalIn env (stakeIn env P k) s es := by
  obtain ⟨n0, a1, a2⟩ := hst.minings k m hm.1 hm.2
  obtain rfl := MiningAt.unique hn a1
  have hn2 : Proper env t.world k n := ⟨hn, a2.type.trans hm.2⟩
  have hnp : n.rewardPool = P := by rw [a2]; exact hpool
  obtain ⟨hend, -⟩ := runs_times hc (h1.weaken fun _ _ h => h.1) (h2.weaken fun _ _ h => h.1) hal hnow (reachable_wf hs)
    (reachable_wf ht) hst
  obtain ⟨q0, b1, b2⟩ := hend.pools P p' hp'
  obtain rfl := PoolAt.unique hq' b1
  have hlen : q'.cumulative.length = p'.cumulative.length := by
    have := congrArg List.length b2.2
    simpa using this
  obtain ⟨m', c1, -, c3, c4⟩ := runs_life h1 hs hm hpool hml hp hpl hi hp' hroom
  obtain ⟨n', d1, -, d3, d4⟩ := runs_life h2 ht hn2 hnp hnl hq hql hj hq' (hlen ▸ hroom)
  obtain ⟨e1, e2, m2, e3⟩ := runs_earned_times hc h1 h2 hal hnow hs ht hst hm hpool hml hp hpl hi hp' hroom
  refine ⟨m', n', c1, d1, ?_, ?_, ?_⟩
  · obtain rfl := MiningAt.unique c1 e3.1
    obtain ⟨n2, f1, f2⟩ := hend.minings k m' c1 e3.2
    obtain rfl := MiningAt.unique d1 f1
    exact f2
  · omega
  · omega

end

/-! ### Concrete cases -/

section Examples
open Demo

/-- The same event with `c` times the stake. -/
def timesEv (c : Nat) : Event → Event
  | .ix accs i => .ix accs (timesIx c i)
  | .ext w => .ext w
  | e => e

theorem allPass_times {c : Nat} {s t : Chain} {es : List Event} (h1 : allPass okEvent s es = true)
    (h2 : allPass okEvent t (es.map (timesEv c)) = true) : Alike Demo.env (TimesEvent c) s t es (es.map (timesEv c)) := by
  induction es generalizing s t with
  | nil => trivial
  | cons e es ih =>
    simp only [List.map_cons, allPass, Bool.and_eq_true] at h1 h2
    refine ⟨?_, ?_, ih h1.2 h2.2⟩
    · cases e <;> first | exact rfl | exact ⟨_, rfl⟩
    · cases e with
      | ix accs i =>
        obtain ⟨r, k1⟩ := exec_of_ok h1.1
        obtain ⟨r', k2⟩ := exec_of_ok h2.1
        simp only [goesThrough, timesEv, succeeded, k1, k2]
      | _ => rfl

/-- The hypotheses of `C102_stakes` are met by a history with deposits, delegations, claims, redelegations, slashes, extensions
and withdrawals, and the same with three times the stake: the total is 3240 and 9720. -/
example : Genesis Demo.env s0 ∧
    RunsWith Demo.env (CleanEvent Demo.env) s0 (joining ++ life) (endOf s0 (joining ++ life)) ∧
    RunsWith Demo.env (CleanEvent Demo.env) s0 ((joining ++ life).map (timesEv 3)) (endOf s0 ((joining ++ life).map (timesEv 3))) ∧
    Alike Demo.env (TimesEvent 3) s0 s0 (joining ++ life) ((joining ++ life).map (timesEv 3)) ∧
    hasPool (endOf s0 (joining ++ life)).world 100 (fun p => decide (p.totalShare = 3240)) = true ∧
    hasPool (endOf s0 ((joining ++ life).map (timesEv 3))).world 100 (fun p => decide (p.totalShare = 9720)) = true :=
  ⟨s0_genesis, allPass_sound (fun _ _ h => okEvent_sound h) (by decide +kernel),
    allPass_sound (fun _ _ h => okEvent_sound h) (by decide +kernel), allPass_times (by decide +kernel) (by decide +kernel),
    by decide +kernel, by decide +kernel⟩

/-- The hypotheses of `C102_rewards` are met by the life of the second staker of this history: 6693 tokens are paid in both
cases. -/
example : Reachable Demo.env (endOf s0 joining) ∧ Reachable Demo.env (endOf s0 (joining.map (timesEv 3))) ∧
    (endOf s0 joining).now = (endOf s0 (joining.map (timesEv 3))).now ∧
    TimesWorld Demo.env 3 (endOf s0 joining).world (endOf s0 (joining.map (timesEv 3))).world ∧
    RunsWith Demo.env (CarefulEvent Demo.env 100 (mine 120 100)) (endOf s0 joining) life (endOf (endOf s0 joining) life) ∧
    RunsWith Demo.env (CarefulEvent Demo.env 100 (mine 120 100)) (endOf s0 (joining.map (timesEv 3))) (life.map (timesEv 3))
      (endOf (endOf s0 (joining.map (timesEv 3))) (life.map (timesEv 3))) ∧
    Alike Demo.env (TimesEvent 3) (endOf s0 joining) (endOf s0 (joining.map (timesEv 3))) life (life.map (timesEv 3)) ∧
    hasMining (endOf s0 joining).world (mine 120 100)
      (fun m => decide (m.accountType = 2 ∧ m.rewardPool = 100 ∧ m.index = 0)) = true ∧
    hasMining (endOf s0 (joining.map (timesEv 3))).world (mine 120 100) (fun m => decide (m.index = 0)) = true ∧
    0 < ((endOf s0 joining).world (mine 120 100)).lamports ∧
    0 < ((endOf s0 (joining.map (timesEv 3))).world (mine 120 100)).lamports ∧
    0 < ((endOf s0 joining).world 100).lamports ∧ 0 < ((endOf s0 (joining.map (timesEv 3))).world 100).lamports ∧
    hasPool (endOf (endOf s0 joining) life).world 100 (fun p => decide (p.cumulative.length < Demo.env.caps.index)) = true ∧
    totalIn Demo.env (claimedBy Demo.env (mine 120 100)) (endOf s0 joining) life = 6693 ∧
    totalIn Demo.env (claimedBy Demo.env (mine 120 100)) (endOf s0 (joining.map (timesEv 3))) (life.map (timesEv 3)) = 6693 := by
  have r1 : RunsWith Demo.env (CleanEvent Demo.env) s0 joining (endOf s0 joining) :=
    allPass_sound (fun _ _ h => okEvent_sound h) (by decide +kernel)
  have r2 : RunsWith Demo.env (CleanEvent Demo.env) s0 (joining.map (timesEv 3)) (endOf s0 (joining.map (timesEv 3))) :=
    allPass_sound (fun _ _ h => okEvent_sound h) (by decide +kernel)
  exact ⟨⟨_, _, s0_genesis, r1⟩, ⟨_, _, s0_genesis, r2⟩, by decide +kernel,
    C102_stakes (by decide) s0_genesis s0_genesis rfl r1 r2 (allPass_times (by decide +kernel) (by decide +kernel)),
    carefulRun_sound (allPass_sound (fun _ _ h => okEvent_sound h) (by decide +kernel)) (by decide +kernel),
    carefulRun_sound (allPass_sound (fun _ _ h => okEvent_sound h) (by decide +kernel)) (by decide +kernel),
    allPass_times (by decide +kernel) (by decide +kernel), by decide +kernel, by decide +kernel, by decide +kernel,
    by decide +kernel, by decide +kernel, by decide +kernel, by decide +kernel, by decide +kernel, by decide +kernel⟩

end Examples

end Verif
