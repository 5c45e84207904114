import Verif.Lemmas.Calendar
import Verif.Props.Distribution
import Verif.Props.Life
import Verif.Lemmas.DemoIncentive
/-!
The index history of a pool has room for the first 1095 days (C131).
-/

namespace Verif

open Spec

section
variable {env : Env}

/-- C131, days.  Over any history the index history of a pool gets at most one entry for every day, the first and the last
included, however often rewards are distributed; before the first distribution of the last day, one less. -/
theorem C131_days {s s' : Chain} {es : List Event} {P : Key} {p : Pool} (hw : Wf env s.now s.world)
    (hp : PoolAt env s.world P p) (hl : 0 < (s.world P).lamports) (hr : RunsWith env (CleanEvent env) s es s') :
    ∃ p', PoolAt env s'.world P p' ∧ p'.cumulative.length ≤ p.cumulative.length + daysPassed s.now s'.now + 1 ∧
      (NewDay p' s'.now → p'.cumulative.length ≤ p.cumulative.length + daysPassed s.now s'.now) := by
  obtain ⟨p', h1, -, h2⟩ := runs_paced hw hr hp hl
  exact ⟨p', h1, h2.upTo, h2.today⟩

/-- C131, creation.  The same from the creation of the pool on, when the history is empty. -/
theorem C131_created {s s' : Chain} {es : List Event} {accs0 : List AccountInfo} {f d P : Key} {w : World}
    {ret0 : Option Nat} (hre : Reachable env s) (hs0 : RealSigners accs0)
    (hnew : exec env s.now s.world accs0 (.initializePool f d) = .ok (w, ret0)) (hP : FirstIs accs0 P)
    (hl : 0 < (w P).lamports) (hr : RunsWith env (CleanEvent env) ⟨s.now, w⟩ es s') :
    ∃ p, PoolAt env s'.world P p ∧ p.cumulative.length ≤ daysPassed s.now s'.now + 1 ∧
      (NewDay p s'.now → p.cumulative.length ≤ daysPassed s.now s'.now) := by
  have hw : Wf env s.now w := by
    have := wf_apply (e := .ix accs0 (.initializePool f d)) (reachable_wf hre) hs0 trivial
    rwa [apply_ix_ok hnew] at this
  cases step_of_exec (reachable_wf hre) hs0 (by exact trivial) hnew with
  | stake _ op => exact op.elim
  | @initPool _ _ P1 T V Y A R K S rest bump accs_eq signedY signedA owned len fresh notPda vault pool' =>
    subst accs_eq
    obtain rfl : P1.key = P := by simpa [FirstIs] using hP
    have hp : PoolAt env w P1.key (Pool.init bump A.key d f T.key) :=
      ⟨by rw [pool']; exact owned, by rw [pool']⟩
    obtain ⟨p, h1, h2, h3⟩ := C131_days (s := ⟨s.now, w⟩) hw hp hl hr
    have e : (Pool.init bump A.key d f T.key).cumulative.length = 0 := rfl
    rw [e, Nat.zero_add] at h2 h3
    exact ⟨p, h1, h2, h3⟩

/-- C131, room.  Before the 1095th day of a pool its history is not full; this is the condition of C13, C14 and of the
theorems about whole lives of minings. -/
theorem C131_room {s s' : Chain} {es : List Event} {accs0 : List AccountInfo} {f d P : Key} {w : World}
    {ret0 : Option Nat} (hre : Reachable env s) (hs0 : RealSigners accs0)
    (hnew : exec env s.now s.world accs0 (.initializePool f d) = .ok (w, ret0)) (hP : FirstIs accs0 P)
    (hl : 0 < (w P).lamports) (hr : RunsWith env (CleanEvent env) ⟨s.now, w⟩ es s')
    (hcap : 1095 ≤ env.caps.index) (hdays : daysPassed s.now s'.now + 1 < 1095) {p : Pool}
    (hp : PoolAt env s'.world P p) : p.cumulative.length < env.caps.index := by
  obtain ⟨q, h1, h2, -⟩ := C131_created hre hs0 hnew hP hl hr
  obtain rfl := PoolAt.unique hp h1
  omega

/-- C131.  On each of the first 1095 days of a pool, a distribution that takes tokens from the budget is recorded in the
history, under the date of that day and with the index raised accordingly, so that stakers are owed their part of it. -/
theorem C131_recorded {s s' : Chain} {es : List Event} {accs0 accs : List AccountInfo} {f d P : Key} {w w' : World}
    {ret0 ret : Option Nat} (hre : Reachable env s) (hs0 : RealSigners accs0)
    (hnew : exec env s.now s.world accs0 (.initializePool f d) = .ok (w, ret0)) (hP : FirstIs accs0 P)
    (hl : 0 < (w P).lamports) (hr : RunsWith env (CleanEvent env) ⟨s.now, w⟩ es s')
    (hcap : 1095 ≤ env.caps.index) (hdays : daysPassed s.now s'.now < 1095) (hs : RealSigners accs)
    (h : exec env s'.now s'.world accs .distributeRewards = .ok (w', ret)) (hP' : FirstIs accs P) :
    ∃ p p', PoolAt env s'.world P p ∧ PoolAt env w' P p' ∧ (p'.tokensAvailable ≠ p.tokensAvailable →
      ∃ T : Nat, totalOn p (midnight s'.now) = T ∧ 0 < T ∧
        p'.cumulative = p.cumulative ++
          [(midnight s'.now, p.index + 10 ^ 16 * (p.tokensAvailable - p'.tokensAvailable) / T)]) := by
  have hw : Wf env s.now w := by
    have := wf_apply (e := .ix accs0 (.initializePool f d)) (reachable_wf hre) hs0 trivial
    rwa [apply_ix_ok hnew] at this
  have hw' : Wf env s'.now s'.world := wf_runs (s := ⟨s.now, w⟩) hw (fun _ _ h => h) hr
  obtain ⟨q, h1, -, h3⟩ := C131_created hre hs0 hnew hP hl hr
  obtain ⟨p, p', g1, g2, g3⟩ := C14_recorded_partial hw' hs h hP'
  obtain rfl := PoolAt.unique h1 g1
  refine ⟨q, p', g1, g2, fun hne => ?_⟩
  by_cases hn : NewDay q s'.now
  · have := h3 hn
    obtain ⟨T, t1, t2, t3, -⟩ := g3 (by omega) hne
    exact ⟨T, t1, t2, t3⟩
  · exfalso
    cases step_of_exec hw' hs (by exact trivial) h with
    | stake _ op => exact op.elim
    | @distribute P' B rest r r' amt accs_eq signed auth good pool pool' amount op same ok' frame shell =>
      subst accs_eq
      obtain rfl : P'.key = P := by simpa [FirstIs] using hP'
      obtain rfl := PoolAt.unique g1 pool
      obtain rfl := PoolAt.unique g2 pool'
      obtain ⟨T, -, rfl⟩ := distribute_again good.ok hn op
      exact hne rfl

/-- C131, once a day.  On each of the first 1095 days of a pool only the first distribution takes anything from the budget:
whatever happens after a distribution, another one on the same day leaves budget, index and history as they are. -/
theorem C131_once {s s' s2 : Chain} {es es2 : List Event} {accs0 accs accs2 : List AccountInfo} {f d P : Key}
    {w w1 w3 : World} {ret0 r1 r3 : Option Nat} (hre : Reachable env s) (hs0 : RealSigners accs0)
    (hnew : exec env s.now s.world accs0 (.initializePool f d) = .ok (w, ret0)) (hP : FirstIs accs0 P)
    (hl : 0 < (w P).lamports) (hr : RunsWith env (CleanEvent env) ⟨s.now, w⟩ es s')
    (hcap : 1095 ≤ env.caps.index) (hdays : daysPassed s.now s'.now < 1095) (hs : RealSigners accs)
    (h1 : exec env s'.now s'.world accs .distributeRewards = .ok (w1, r1)) (hf : FirstIs accs P)
    (hr2 : RunsWith env (CleanEvent env) ⟨s'.now, w1⟩ es2 s2) (hday : midnight s2.now = midnight s'.now)
    (hs2 : RealSigners accs2) (h3 : exec env s2.now s2.world accs2 .distributeRewards = .ok (w3, r3))
    (hf2 : FirstIs accs2 P) :
    ∃ p2 p3, PoolAt env s2.world P p2 ∧ PoolAt env w3 P p3 ∧ SameBudget p2 p3 := by
  have hw : Wf env s.now w := by
    have := wf_apply (e := .ix accs0 (.initializePool f d)) (reachable_wf hre) hs0 trivial
    rwa [apply_ix_ok hnew] at this
  have hw' : Wf env s'.now s'.world := wf_runs (s := ⟨s.now, w⟩) hw (fun _ _ h => h) hr
  obtain ⟨q, a1, -, a3⟩ := C131_created hre hs0 hnew hP hl hr
  have hl' : 0 < (s'.world P).lamports := by
    cases step_of_exec (reachable_wf hre) hs0 (by exact trivial) hnew with
    | stake _ op => exact op.elim
    | @initPool _ _ P1 T V Y A R K S rest bump accs_eq signedY signedA owned len fresh notPda vault pool' =>
      subst accs_eq
      obtain rfl : P1.key = P := by simpa [FirstIs] using hP
      have hp : PoolAt env w P1.key (Pool.init bump A.key d f T.key) := ⟨by rw [pool']; exact owned, by rw [pool']⟩
      obtain ⟨-, -, h, -⟩ := runs_paced (s := ⟨s.now, w⟩) hw hr hp hl
      exact h
  by_cases hn : NewDay q s'.now
  · have := a3 hn
    exact C13_one_per_day_partial hw' hs hs2 h1 hf a1 hl' (by omega) hr2 hday h3 hf2
  · have hrun : CleanRun env s' (.ix accs .distributeRewards :: es2) s2 :=
      .cons (e := .ix accs .distributeRewards) hs trivial (by rw [apply_ix_ok h1]; exact hr2)
    obtain ⟨p2, b1, b2, -⟩ := C15_history_immutable hw' hrun a1 hl'
    have hw2 : Wf env s2.now s2.world := wf_runs hw' (fun _ _ h => h) hrun
    obtain ⟨p2', p3, k1, k2, -, -, k3⟩ := C12_daily_amount hw2 hs2 h3 hf2
    obtain rfl := PoolAt.unique b1 k1
    refine ⟨p2, p3, b1, k2, k3 fun hn' => hn fun e he => ?_⟩
    rw [← hday]
    exact hn' e (b2.subset he)

/-- C131, stakers.  Whoever joins a pool and is careful as in C72 has, before the 1095th day of the pool, been paid or is still
owed all that their stake has earned, but for the roundings: no distribution to them is lost. -/
theorem C131_stakers {s t s' : Chain} {es fs : List Event} {accs0 accs : List AccountInfo} {f d o P k : Key} {w w1 : World}
    {ret0 ret : Option Nat} (hre : Reachable env s) (hs0 : RealSigners accs0)
    (hpool : exec env s.now s.world accs0 (.initializePool f d) = .ok (w, ret0)) (hP : FirstIs accs0 P)
    (hl : 0 < (w P).lamports) (hr : RunsWith env (CleanEvent env) ⟨s.now, w⟩ es t) (hs : RealSigners accs)
    (hnew : exec env t.now t.world accs (.initializeMining o) = .ok (w1, ret))
    (hk : miningArg accs (.initializeMining o) = some k) (hkP : poolArg accs (.initializeMining o) = some P)
    (hkl : 0 < (w1 k).lamports) (hr' : RunsWith env (CarefulEvent env P k) ⟨t.now, w1⟩ fs s')
    (hcap : 1095 ≤ env.caps.index) (hdays : daysPassed s.now s'.now + 1 < 1095) :
    ∃ p' m', PoolAt env s'.world P p' ∧ MiningAt env s'.world k m' ∧
      10 ^ 16 * totalIn env (claimedBy env k) ⟨t.now, w1⟩ fs + owed m' p'.cumulative ≤
        totalIn env (earnedBy env P k) ⟨t.now, w1⟩ fs ∧
      totalIn env (earnedBy env P k) ⟨t.now, w1⟩ fs ≤
        10 ^ 16 * totalIn env (claimedBy env k) ⟨t.now, w1⟩ fs + owed m' p'.cumulative +
          10 ^ 16 * totalIn env (roundedBy env k) ⟨t.now, w1⟩ fs := by
  have hre0 : Reachable env ⟨s.now, w⟩ := by
    have := hre.step (e := .ix accs0 (.initializePool f d)) hs0 trivial
    rwa [apply_ix_ok hpool] at this
  have hr1 : RunsWith env (CleanEvent env) ⟨s.now, w⟩ (es ++ [.ix accs (.initializeMining o)]) ⟨t.now, w1⟩ :=
    RunsWith.append hr (.cons (e := .ix accs (.initializeMining o)) hs trivial (by rw [apply_ix_ok hnew]; exact .nil _))
  have hr2 := RunsWith.append hr1 (hr'.weaken fun _ _ h => h.1)
  obtain ⟨p0, hp0⟩ : ∃ p0, PoolAt env w P p0 := by
    obtain ⟨p0, h, -⟩ := C131_created hre hs0 hpool hP hl (.nil _)
    exact ⟨p0, h⟩
  obtain ⟨p, hp, hpl, -⟩ := runs_paced (s := ⟨s.now, w⟩) (reachable_wf hre0) hr1 hp0 hl
  obtain ⟨p', hp', -⟩ := C131_created hre hs0 hpool hP hl hr2
  obtain ⟨m', h1, h2, h3⟩ := C72_whole (hre0.runs hr) hs hnew hk hkP hr' hkl hp hpl hp'
    (C131_room hre hs0 hpool hP hl hr2 hcap hdays hp')
  exact ⟨p', m', hp', h1, h2, h3⟩

end

/-! ### Concrete cases -/

section Examples
open Demo

/-- Everything in the story after the creation of the pool. -/
def afterCreation : List Event := [initMining 100 121, deposit 100 121 1000 .flex 121, fill 100 10000 (day0 + 10 * DAY),
  .tick DAY, distribute 100, distribute 100, .tick (3 * DAY)]

/-- A pool is created, … -/
def created : Chain := s0.apply Demo.env (initPool 100)

/-- … stake is deposited, rewards are filled and distributed twice on the next day, and three days pass. -/
def dayFour : Chain := endOf created afterCreation

-- all hypotheses of the theorems above, with a distribution that takes tokens from the budget
example : ∃ w ret0 accs0 f d, exec Demo.env s0.now s0.world accs0 (.initializePool f d) = .ok (w, ret0) ∧
    Reachable Demo.env s0 ∧ FirstIs accs0 100 ∧ RealSigners accs0 ∧ 0 < (w 100).lamports ∧
    RunsWith Demo.env (CleanEvent Demo.env) ⟨s0.now, w⟩ afterCreation dayFour ∧ 1095 ≤ Demo.env.caps.index ∧
    daysPassed s0.now dayFour.now = 4 ∧ okEvent dayFour (distribute 100) = true := by
  have hok : okEvent s0 (initPool 100) = true := by decide +kernel
  obtain ⟨ret, h⟩ := exec_of_ok hok
  have e : created = ⟨s0.now, created.world⟩ := apply_ix_ok h
  refine ⟨created.world, ret, _, _, _, h, after_reachable (es := []) rfl, rfl, (okEvent_sound hok).1, by decide +kernel, ?_⟩
  rw [← e]
  exact ⟨allPass_sound (fun _ _ h => okEvent_sound h) (by decide +kernel), by decide, by decide +kernel, by decide +kernel⟩

-- the two distributions of one day left one entry, and today's takes tokens
example : hasPool dayFour.world 100 (fun p => decide (p.cumulative.length = 1) &&
    hasPool (dayFour.apply Demo.env (distribute 100)).world 100
      (fun p' => decide (p'.tokensAvailable < p.tokensAvailable ∧ p'.cumulative.length = 2))) = true := by decide +kernel

-- a stake is deposited after that, and a second distribution on the same day goes through as well (C131_once)
example : okEvent (endOf dayFour [distribute 100, deposit 100 121 500 .flex 121]) (distribute 100) = true ∧
    allPass okEvent dayFour [distribute 100, deposit 100 121 500 .flex 121] = true := by decide +kernel

/-- The second staker of C72 joins 5 seconds after the creation of the pool, and their life goes on for 443 days. -/
def ended : Chain := endOf (endOf s0 joining) life

-- the hypotheses of C131_stakers about the two creations and the careful life, which ends before the 1095th day
example : joining = initPool 100 :: (joining.drop 1).take 5 ++ [initMining 100 120] ∧ okEvent s0 (initPool 100) = true ∧
    allPass okEvent s0 joining = true ∧ allPass okEvent (endOf s0 joining) life = true ∧
    carefulRun 100 (mine 120 100) (endOf s0 joining) life = true ∧ daysPassed s0.now ended.now = 443 := by
  refine ⟨rfl, by decide +kernel, by decide +kernel, by decide +kernel, by decide +kernel, by decide +kernel⟩

end Examples

end Verif
