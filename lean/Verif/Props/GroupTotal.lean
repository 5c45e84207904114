import Verif.Lemmas.GroupTotal
import Verif.Lemmas.DemoLedger
import Verif.Props.Group
import Verif.Props.Life
/-!
C115: a group of stakers earns the same together, however it arranges its stakes.
-/

namespace Verif

open Spec

section
variable {env : Env}

theorem noneClosed_of {P : Key} {K : List Key} {s s' : Chain} {es : List Event} (hc : RunsWith env (CleanEvent env) s es s')
    (h : ∀ k ∈ K, RunsWith env (CarefulEvent env P k) s es s') : RunsWith env (NoneClosed env K) s es s' := by
  induction hc with
  | nil => exact .nil _
  | @cons s s' e es hv hc _ ih =>
    refine .cons hv ⟨hc, ?_⟩ (ih fun k hk => by cases h k hk with | cons _ _ r => exact r)
    cases e with
    | ix accs i =>
      intro hs k hk hm
      cases h k hk with
      | cons _ c _ => exact ((c.2 hs).own hm).1
    | _ => trivial

/-- C115.  Two histories of honest operations from the same state that differ only in what the members of a group arrange among
themselves (see C114; in both nobody of the group is closed or penalized, changes their stake in the first second of a day, or has
the stake delegated to them changed while not up to date).  Then the group has the same stake to earn with on every day to come,
the sum of its members' parts of the distributions is exactly the same in both, and what its members have been paid and are still
owed together differs by no more than the rounding to whole tokens: nothing can be gained or lost by who of them holds a stake,
whom of them it is delegated to, and when they claim. -/
theorem C115_group (hi : env.PdaInjective) {P : Key} {K : List Key} {s0 s s1 s2 : Chain} {es0 es es' : List Event}
    {L L1 L2 : Ledger} {p p' : Pool} (hg : Genesis env s0) (h0 : LedgerRuns env P s0 [] es0 s L) (hK : K.Nodup)
    (hm : ∀ k ∈ K, 0 < (s.world k).lamports ∧ ∃ m, Proper env s.world k m ∧ m.rewardPool = P ∧ m.index ≤ p.index)
    (hp : PoolAt env s.world P p) (hpl : 0 < (s.world P).lamports)
    (h1 : LedgerRuns env P s L es s1 L1) (h2 : LedgerRuns env P s L es' s2 L2)
    (c1 : ∀ k ∈ K, RunsWith env (CarefulEvent env P k) s es s1) (c2 : ∀ k ∈ K, RunsWith env (CarefulEvent env P k) s es' s2)
    (hu : UpToGroup env K s s es es') (hp' : PoolAt env s1.world P p') (hroom : p'.cumulative.length < env.caps.index) :
    PoolAt env s2.world P p' ∧
      (∀ x, midnight s1.now ≤ x → earningTotal env s1.world P x K = earningTotal env s2.world P x K) ∧
      sumOver (fun k => totalIn env (earnedBy env P k) s es) K = sumOver (fun k => totalIn env (earnedBy env P k) s es') K ∧
      10 ^ 16 * sumOver (fun k => totalIn env (claimedBy env k) s es) K + owedTotal env s1.world P p'.cumulative K ≤
        10 ^ 16 * sumOver (fun k => totalIn env (claimedBy env k) s es') K + owedTotal env s2.world P p'.cumulative K +
          10 ^ 16 * sumOver (fun k => totalIn env (roundedBy env k) s es') K ∧
      10 ^ 16 * sumOver (fun k => totalIn env (claimedBy env k) s es') K + owedTotal env s2.world P p'.cumulative K ≤
        10 ^ 16 * sumOver (fun k => totalIn env (claimedBy env k) s es) K + owedTotal env s1.world P p'.cumulative K +
          10 ^ 16 * sumOver (fun k => totalIn env (roundedBy env k) s es) K := by
  have hre : Reachable env s := ⟨s0, es0, hg, h0.clean⟩
  have hw := reachable_wf hre
  have hP0 : P ≠ 0 := (hw P).nonzero hp.1
  have hb := ledger_booked hi hP0 hg h0
  have hpda : ∀ k ∈ K, env.IsPda k := fun k hk => by
    obtain ⟨-, m, h, -⟩ := hm k hk
    exact isPda_of_proper hre h
  have hI : ∀ k ∈ K, (miningsOf s.world k).rewardPool = P := fun k hk => by
    obtain ⟨-, m, h, e, -⟩ := hm k hk
    unfold miningsOf; rw [h.1.2]; exact e
  obtain ⟨t, e⟩ := together_runs hi hP0 hK hI hpda hu h1 h2 (noneClosed_of h1.clean c1) (noneClosed_of h2.clean c2)
    ⟨rfl, around_refl fun k hk => by obtain ⟨a, m, b, -⟩ := hm k hk; exact ⟨a, m, b⟩, hw, hw, hb, hb, ⟨p, hp, hpl⟩, ⟨p, hp, hpl⟩⟩
  have hp2 := around_pool t.around hp'
  obtain ⟨m1, m2⟩ := t.members hI
  obtain ⟨a1, a2⟩ := group_life hre hm c1 m1 hp hpl hp' hroom
  obtain ⟨b1, b2⟩ := group_life hre hm c2 m2 hp hpl hp2 hroom
  exact ⟨hp2, fun x hx => t.earning hK hx, e, by omega, by omega⟩

end

/-! ### A concrete case -/

section Examples
open Demo

/-- One staker, and a group of three without stakes. -/
def gathering : List (Event × Nat) := [(initPool 100, 0), (initMining 100 121, 0), (deposit 100 121 1000 .flex 121, 0),
  (fill 100 100000 (day0 + 10 * DAY), 0), (initMining 100 120, 0), (initMining 100 122, 0), (initMining 100 123, 0)]

def gathered : Chain × Ledger := (ledgerRun 100 s0 [] gathering).getD (s0, [])

/-- In the first history 120 and 123 stake, and 122 and 123 are delegated to; in the second 122 and 120 stake, and 123 is. -/
def roles : List Arranged :=
  [.swap (deposit 100 120 500 .flex 122) (deposit 100 122 500 .flex 123), .same (.tick 10), .one (redelegate 100 120 500 122 123),
    .swap (extend 100 120 .flex .oneYear (day0 + 100) 500 10 123) (extend 100 122 .flex .oneYear (day0 + 100) 500 10 123),
    .same (.tick DAY), .same (distribute 100), .one (claim 100 120 130),
    .swap (deposit 100 123 300 .flex 123) (deposit 100 120 300 .flex 120), .same (claim 100 121 131), .same (.tick DAY),
    .same (distribute 100), .swap (withdraw 100 123 100 123) (withdraw 100 120 100 120),
    .swap (slash 100 123 50 50 none) (slash 100 120 50 50 none), .same (.tick DAY), .same (distribute 100),
    .same (claim 100 120 130)]

def inRoles (es : List Event) : Chain × Ledger :=
  (ledgerRun 100 gathered.1 gathered.2 (es.map fun e => (e, 0))).getD gathered

theorem inRoles_eq {es : List Event} (h : (ledgerRun 100 gathered.1 gathered.2 (es.map fun e => (e, 0))).isSome = true) :
    LedgerRuns Demo.env 100 gathered.1 gathered.2 es (inRoles es).1 (inRoles es).2 := by
  have hr : ledgerRun 100 gathered.1 gathered.2 (es.map fun e => (e, 0)) = some ((inRoles es).1, (inRoles es).2) := by
    unfold inRoles
    revert h
    generalize ledgerRun 100 gathered.1 gathered.2 (es.map fun e => (e, 0)) = r
    cases r <;> simp
  have := ledgerRun_sound hr
  simpa [List.map_map, Function.comp_def] using this

/-- The hypotheses of `C115_group` are met; the members have different stakes, and some are paid. -/
example : ∃ p p', Genesis Demo.env s0 ∧ Demo.env.PdaInjective ∧
    LedgerRuns Demo.env 100 s0 [] (gathering.map (·.1)) gathered.1 gathered.2 ∧ theGroup.Nodup ∧
    (∀ k ∈ theGroup, 0 < (gathered.1.world k).lamports ∧ ∃ m, Proper Demo.env gathered.1.world k m ∧ m.rewardPool = 100 ∧
      m.index ≤ p.index) ∧
    PoolAt Demo.env gathered.1.world 100 p ∧ 0 < (gathered.1.world 100).lamports ∧
    LedgerRuns Demo.env 100 gathered.1 gathered.2 (inFirst roles) (inRoles (inFirst roles)).1 (inRoles (inFirst roles)).2 ∧
    LedgerRuns Demo.env 100 gathered.1 gathered.2 (inSecond roles) (inRoles (inSecond roles)).1 (inRoles (inSecond roles)).2 ∧
    (∀ k ∈ theGroup, RunsWith Demo.env (CarefulEvent Demo.env 100 k) gathered.1 (inFirst roles) (inRoles (inFirst roles)).1) ∧
    (∀ k ∈ theGroup, RunsWith Demo.env (CarefulEvent Demo.env 100 k) gathered.1 (inSecond roles) (inRoles (inSecond roles)).1) ∧
    UpToGroup Demo.env theGroup gathered.1 gathered.1 (inFirst roles) (inSecond roles) ∧
    PoolAt Demo.env (inRoles (inFirst roles)).1.world 100 p' ∧ p'.cumulative.length < Demo.env.caps.index ∧
    0 < totalIn Demo.env (claimedBy Demo.env (mine 120 100)) gathered.1 (inFirst roles) ∧
    (hasMining (inRoles (inFirst roles)).1.world (mine 120 100) fun m => decide (500 < m.share)) = true ∧
    (hasMining (inRoles (inSecond roles)).1.world (mine 120 100) fun m => decide (m.share < 500)) = true := by
  have hpool : hasPool gathered.1.world 100 (fun p => decide (p.index = 0)) = true := by decide +kernel
  have hpool' : hasPool (inRoles (inFirst roles)).1.world 100 (fun p => decide (p.cumulative.length < Demo.env.caps.index)) = true := by
    decide +kernel
  have hmem : (theGroup.all fun k => (hasMining gathered.1.world k fun m => decide (m.accountType = 2) &&
      decide (m.rewardPool = 100) && decide (m.index = 0)) && decide (0 < (gathered.1.world k).lamports)) = true := by
    decide +kernel
  have hc1 : (theGroup.all fun k => carefulRun 100 k gathered.1 (inFirst roles)) = true := by decide +kernel
  have hc2 : (theGroup.all fun k => carefulRun 100 k gathered.1 (inSecond roles)) = true := by decide +kernel
  have l1 := inRoles_eq (es := inFirst roles) (by decide +kernel)
  have l2 := inRoles_eq (es := inSecond roles) (by decide +kernel)
  obtain ⟨p, q1, -⟩ := hasPool_sound hpool
  obtain ⟨p', q2, q3⟩ := hasPool_sound hpool'
  refine ⟨p, p', s0_genesis, env_injective, ledgerRun_eq (by decide +kernel), by decide +kernel, fun k hk => ?_, q1,
    by decide +kernel, l1, l2, fun k hk => carefulRun_sound l1.clean (List.all_eq_true.mp hc1 k hk),
    fun k hk => carefulRun_sound l2.clean (List.all_eq_true.mp hc2 k hk), upToGroupB_sound (by decide +kernel), q2,
    by simpa using q3, by decide +kernel, by decide +kernel, by decide +kernel⟩
  have hk' := List.all_eq_true.mp hmem k hk
  simp only [Bool.and_eq_true] at hk'
  obtain ⟨m, a1, a2⟩ := hasMining_sound hk'.1
  simp only [Bool.and_eq_true, decide_eq_true_eq] at a2
  refine ⟨by simpa using hk'.2, m, ⟨a1, a2.1.1⟩, a2.1.2, ?_⟩
  rw [a2.2]; exact Nat.zero_le _

end Examples

end Verif
