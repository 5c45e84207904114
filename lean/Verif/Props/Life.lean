import Verif.Lemmas.Life
import Verif.Lemmas.DemoOrderly
/-!
C72: the account of a staker over a whole history.
-/

namespace Verif

open Spec

section
variable {env : Env}

/-- C72.  Over every history in which the mining at `k` of the pool at `P` is neither closed nor penalized, its own stake is not
changed in the first second of a day, and the stake delegated to it is changed only when it is up to date: what its owner is paid
plus what the mining is still owed is what it was owed at the beginning plus its part of every distribution, by the stake it had
on that day - never more, and less only by the rounding to whole tokens, one for every time it is brought up to date and for every
lock that expires.  Everything else is unrestricted: claims, deposits, withdrawals, extensions, slashes and redelegations of this
mining at any time and in any order, other stakers, authorities and outside programs.  (`m.index ≤ p.index` holds for every mining
that never saw another pool; the history of the pool must not have become full, see C66.) -/
theorem C72_life {P k : Key} {s s' : Chain} {es : List Event} {m : Mining} {p p' : Pool} (hre : Reachable env s)
    (hr : RunsWith env (CarefulEvent env P k) s es s') (hm : Proper env s.world k m) (hpool : m.rewardPool = P)
    (hml : 0 < (s.world k).lamports) (hp : PoolAt env s.world P p) (hpl : 0 < (s.world P).lamports) (hidx : m.index ≤ p.index)
    (hp' : PoolAt env s'.world P p') (hroom : p'.cumulative.length < env.caps.index) :
    ∃ m', MiningAt env s'.world k m' ∧
      10 ^ 16 * totalIn env (claimedBy env k) s es + owed m' p'.cumulative ≤
        owed m p.cumulative + totalIn env (earnedBy env P k) s es ∧
      owed m p.cumulative + totalIn env (earnedBy env P k) s es ≤
        10 ^ 16 * totalIn env (claimedBy env k) s es + owed m' p'.cumulative +
          10 ^ 16 * totalIn env (roundedBy env k) s es := by
  obtain ⟨m', h1, -, h3, h4⟩ := runs_life hr hre hm hpool hml hp hpl hidx hp' hroom
  exact ⟨m', h1, h3, h4⟩

/-- C72 from the creation of the mining on: all it ever earned is paid or still owed, but for the roundings. -/
theorem C72_whole {P k : Key} {s s' : Chain} {es : List Event} {accs : List AccountInfo} {o : Key} {w : World}
    {ret : Option Nat} {p p' : Pool} (hre : Reachable env s) (hs : RealSigners accs)
    (hnew : exec env s.now s.world accs (.initializeMining o) = .ok (w, ret))
    (hk : miningArg accs (.initializeMining o) = some k) (hP : poolArg accs (.initializeMining o) = some P)
    (hr : RunsWith env (CarefulEvent env P k) ⟨s.now, w⟩ es s') (hml : 0 < (w k).lamports)
    (hp : PoolAt env w P p) (hpl : 0 < (w P).lamports) (hp' : PoolAt env s'.world P p')
    (hroom : p'.cumulative.length < env.caps.index) :
    ∃ m', MiningAt env s'.world k m' ∧
      10 ^ 16 * totalIn env (claimedBy env k) ⟨s.now, w⟩ es + owed m' p'.cumulative ≤
        totalIn env (earnedBy env P k) ⟨s.now, w⟩ es ∧
      totalIn env (earnedBy env P k) ⟨s.now, w⟩ es ≤
        10 ^ 16 * totalIn env (claimedBy env k) ⟨s.now, w⟩ es + owed m' p'.cumulative +
          10 ^ 16 * totalIn env (roundedBy env k) ⟨s.now, w⟩ es := by
  have hre' : Reachable env ⟨s.now, w⟩ := by
    have := hre.step (e := .ix accs (.initializeMining o)) hs trivial
    rwa [apply_ix_ok hnew] at this
  cases step_of_exec (reachable_wf hre) hs (by exact trivial) hnew with
  | stake _ op => exact op.elim
  | @initMining _ P1 M Y S rest bump accs_eq signedY owned addr before mining' payer payer' frame ne neP =>
    subst accs_eq
    obtain rfl : M.key = k := Option.some.inj hk
    obtain rfl : P1.key = P := Option.some.inj hP
    have hm : Proper env w M.key (Mining.init P1.key o bump) :=
      ⟨⟨by rw [mining'], by rw [mining']⟩, rfl⟩
    have h0 : owed (Mining.init P1.key o bump) p.cumulative = 0 := by
      have he : ∀ x, earningOn (Mining.init P1.key o bump) x = 0 := fun x => by
        simp [earningOn, dueBy, Mining.init, Mining.zero]
      have : ∀ l i q, earned (earningOn (Mining.init P1.key o bump)) i q l = 0 := by
        intro l
        induction l with
        | nil => intro i q; rfl
        | cons a t ih =>
          intro i q
          simp [earned, ih, he]
      simp only [owed, pending, this]
      rfl
    obtain ⟨m', h1, h2, h3⟩ := C72_life hre' hr hm rfl hml hp hpl (Nat.zero_le _) hp' hroom
    rw [h0, Nat.zero_add] at h2 h3
    exact ⟨m', h1, h2, h3⟩

end

/-! ### Concrete cases -/

section Examples
open Demo

/-- Executable version of `CarefulEvent`. -/
def carefulB (P k : Key) (s : Chain) : Event → Bool
  | .ix accs i =>
    !succeeded Demo.env s accs i ||
      ((decide (miningArg accs i ≠ some k) ||
          ((match i with | .closeMining | .decreaseRewards .. => false | _ => true) &&
            (!restakes i || decide (s.now ≠ midnight s.now)))) &&
        (decide (miningArg accs i = some k) || !(decide (delegateArg accs i = some k) || decide (oldDelegateArg accs i = some k)) ||
          (decide (poolArg accs i = some P) &&
            match (s.world k).content, (s.world P).content with
            | .mining m, .pool p => decide (p.index ≤ m.index)
            | _, _ => false)))
  | _ => true

def carefulRun (P k : Key) : Chain → List Event → Bool
  | _, [] => true
  | s, e :: es => carefulB P k s e && carefulRun P k (s.apply Demo.env e) es

theorem carefulB_sound {P k : Key} {s : Chain} {e : Event} (hc : CleanEvent Demo.env s e) (h : carefulB P k s e = true) :
    CarefulEvent Demo.env P k s e := by
  refine ⟨hc, ?_⟩
  cases e with
  | ix accs i =>
    intro hs
    simp only [carefulB, hs, Bool.not_true, Bool.false_or, Bool.and_eq_true, Bool.or_eq_true, decide_eq_true_eq,
      Bool.not_eq_true', Bool.or_eq_false_iff, decide_eq_false_iff_not] at h
    obtain ⟨h1, h2⟩ := h
    refine ⟨fun hm => ?_, fun hm hd => ?_⟩
    · rcases h1 with h1 | ⟨h1, h3⟩
      · exact absurd hm h1
      · refine ⟨?_, ?_, fun hr => ?_⟩
        · rintro rfl; simp at h1
        · rintro o n rfl; simp at h1
        · rcases h3 with h3 | h3
          · rw [hr] at h3; cases h3
          · exact h3
    · rcases h2 with (h2 | h2) | ⟨h2, h3⟩
      · exact absurd h2 hm
      · rcases hd with hd | hd
        · exact absurd hd h2.1
        · exact absurd hd h2.2
      · refine ⟨h2, fun m p e1 e2 => ?_⟩
        rw [e1.2, e2.2] at h3
        simpa using h3
  | _ => trivial

theorem carefulRun_sound {P k : Key} {s s' : Chain} {es : List Event} (h : RunsWith Demo.env (CleanEvent Demo.env) s es s')
    (hs : carefulRun P k s es = true) : RunsWith Demo.env (CarefulEvent Demo.env P k) s es s' := by
  induction h with
  | nil => exact .nil _
  | @cons s s' e es hv hc _ ih =>
    simp only [carefulRun, Bool.and_eq_true] at hs
    exact .cons hv (carefulB_sound hc hs.1) (ih hs.2)

/-- A pool with one staker, and a second one just joining. -/
def joining : List Event := [initPool 100, initMining 100 121, deposit 100 121 1000 .flex 121,
  fill 100 10000 (day0 + 10 * DAY), .tick 5, distribute 100, initMining 100 120]

/-- The life of the second one: they stake, lock, claim, are delegated to (once up to date) and no longer, slashed, extend and
withdraw, while distributions go on. -/
def life : List Event := [deposit 100 120 500 .oneYear 120, .tick DAY, distribute 100, deposit 100 120 300 .flex 120, claim 100 120 130,
  deposit 100 121 70 .flex 120, .tick DAY, distribute 100, claim 100 121 131, redelegate 100 120 100 120 121,
  claim 100 120 130, withdraw 100 121 70 120, .tick (40 * DAY), distribute 100, slash 100 120 100 100 none, fill 100 10000 (day0 + 1000 * DAY),
  .tick (400 * DAY), distribute 100, extend 100 120 .oneYear .sixMonths (day0 + 105) 500 10 120, .tick DAY, distribute 100,
  withdraw 100 120 100 120, claim 100 120 130]

/-- The hypotheses of `C72_life` are met, with 6693 tokens paid of 6694.77 earned and at most 11 roundings. -/
example : ∃ s', Reachable Demo.env ((run s0 joining).getD s0) ∧
    RunsWith Demo.env (CarefulEvent Demo.env 100 (mine 120 100)) ((run s0 joining).getD s0) life s' ∧
    hasPool s'.world 100 (fun p => decide (p.cumulative.length < Demo.env.caps.index)) = true ∧
    totalIn Demo.env (claimedBy Demo.env (mine 120 100)) ((run s0 joining).getD s0) life = 6693 ∧
    totalIn Demo.env (earnedBy Demo.env 100 (mine 120 100)) ((run s0 joining).getD s0) life = 66947713177249102500 ∧
    totalIn Demo.env (roundedBy Demo.env (mine 120 100)) ((run s0 joining).getD s0) life = 11 := by
  refine ⟨(run ((run s0 joining).getD s0) life).getD s0, after_reachable (by decide +kernel), carefulRun_sound (run_sound ?_)
    (by decide +kernel), by decide +kernel, by decide +kernel, by decide +kernel, by decide +kernel⟩
  have h : (run ((run s0 joining).getD s0) life).isSome = true := by decide +kernel
  cases hr : run ((run s0 joining).getD s0) life with
  | none => rw [hr] at h; cases h
  | some x => rfl

/-- The mining exists and the instruction that created it meets the hypotheses of `C72_whole`. -/
example : hasMining ((run s0 joining).getD s0).world (mine 120 100) (fun m => decide (m.accountType = 2 ∧ m.rewardPool = 100)) = true ∧
    hasPool ((run s0 joining).getD s0).world 100 (fun p => decide (0 < p.index)) = true ∧
    okEvent ((run s0 (joining.take 6)).getD s0) (initMining 100 120) = true :=
  ⟨by decide +kernel, by decide +kernel, by decide +kernel⟩

end Examples

end Verif
