import Verif.Lemmas.Outstake
import Verif.Props.Life
import Verif.Lemmas.DemoIncentive
/-!
C122: two stakers of the same pool compared.
-/

namespace Verif

open Spec

section
variable {env : Env}

/-- C122.  Take two stakers of a pool in any history that treats both with care (as in C72: they are neither closed nor
penalized, their stakes do not change in the first second of a day, and stake delegated to them changes only when they are up to
date), with deposits, withdrawals, extensions, claims and so on of either at any time.  If whenever rewards are distributed the
first holds at most `a / b` times the stake of the second, then all the first is paid and owed, beyond what they were owed at the
beginning, is at most `a / b` times as much as the second is paid and owed, and the tokens lost to roundings by the second. -/
theorem C122_more {P k1 k2 : Key} {a b : Nat} {s s' : Chain} {es : List Event} {m1 m2 : Mining} {p p' : Pool}
    (hre : Reachable env s) (hr : RunsWith env (OutstakedEvent env P k1 k2 a b) s es s')
    (h1 : Proper env s.world k1 m1) (hP1 : m1.rewardPool = P) (hl1 : 0 < (s.world k1).lamports) (hi1 : m1.index ≤ p.index)
    (h2 : Proper env s.world k2 m2) (hP2 : m2.rewardPool = P) (hl2 : 0 < (s.world k2).lamports) (hi2 : m2.index ≤ p.index)
    (hp : PoolAt env s.world P p) (hpl : 0 < (s.world P).lamports)
    (hp' : PoolAt env s'.world P p') (hroom : p'.cumulative.length < env.caps.index) :
    ∃ m1' m2', MiningAt env s'.world k1 m1' ∧ MiningAt env s'.world k2 m2' ∧
      b * (10 ^ 16 * totalIn env (claimedBy env k1) s es + owed m1' p'.cumulative) + a * owed m2 p.cumulative ≤
        a * (10 ^ 16 * totalIn env (claimedBy env k2) s es + owed m2' p'.cumulative +
          10 ^ 16 * totalIn env (roundedBy env k2) s es) + b * owed m1 p.cumulative := by
  obtain ⟨m1', a1, b1, -⟩ := C72_life hre (hr.weaken fun _ _ h => h.1) h1 hP1 hl1 hp hpl hi1 hp' hroom
  obtain ⟨m2', a2, -, c2⟩ := C72_life hre (hr.weaken fun _ _ h => h.2.1) h2 hP2 hl2 hp hpl hi2 hp' hroom
  refine ⟨m1', m2', a1, a2, ?_⟩
  have e := earned_total_compared (hr.weaken fun _ _ h => h.2.2)
  have b1' := Nat.mul_le_mul_left b b1
  have c2' := Nat.mul_le_mul_left a c2
  rw [Nat.mul_add] at b1' c2'
  rw [Nat.mul_add b] at b1'
  rw [Nat.mul_add b]
  omega

/-- C122, the case of no stake: a mining that has no stake whenever rewards are distributed is paid and owed no more than it was
owed at the beginning. -/
theorem C122_nothing {P k : Key} {s s' : Chain} {es : List Event} {m : Mining} {p p' : Pool} (hre : Reachable env s)
    (hr : RunsWith env (OutstakedEvent env P k k 0 1) s es s') (hm : Proper env s.world k m) (hP : m.rewardPool = P)
    (hl : 0 < (s.world k).lamports) (hi : m.index ≤ p.index) (hp : PoolAt env s.world P p) (hpl : 0 < (s.world P).lamports)
    (hp' : PoolAt env s'.world P p') (hroom : p'.cumulative.length < env.caps.index) :
    ∃ m', MiningAt env s'.world k m' ∧
      10 ^ 16 * totalIn env (claimedBy env k) s es + owed m' p'.cumulative ≤ owed m p.cumulative := by
  obtain ⟨m1', _, a1, _, h⟩ := C122_more hre hr hm hP hl hi hm hP hl hi hp hpl hp' hroom
  simp only [Nat.zero_mul, Nat.one_mul, Nat.add_zero, Nat.zero_add] at h
  exact ⟨m1', a1, h⟩

end

/-! ### Concrete cases -/

section Examples
open Demo

/-- Executable version of `HoldsAtMost`. -/
def holdsAtMostB (P k1 k2 : Key) (a b : Nat) (s : Chain) : Event → Bool
  | .ix accs .distributeRewards =>
    !decide (FirstIs accs P) || decide (b * earnsWith s.world k1 (midnight s.now) ≤ a * earnsWith s.world k2 (midnight s.now))
  | _ => true

/-- Executable version of `OutstakedEvent`. -/
def outstakedB (P k1 k2 : Key) (a b : Nat) (s : Chain) (e : Event) : Bool :=
  okEvent s e && carefulB P k1 s e && carefulB P k2 s e && holdsAtMostB P k1 k2 a b s e

theorem outstakedB_sound {P k1 k2 : Key} {a b : Nat} (s : Chain) (e : Event) (h : outstakedB P k1 k2 a b s e = true) :
    e.Valid Demo.env s ∧ OutstakedEvent Demo.env P k1 k2 a b s e := by
  simp only [outstakedB, Bool.and_eq_true] at h
  obtain ⟨⟨⟨h0, h1⟩, h2⟩, h3⟩ := h
  refine ⟨(okEvent_sound h0).1, carefulB_sound (okEvent_sound h0).2 h1, carefulB_sound (okEvent_sound h0).2 h2, ?_⟩
  unfold HoldsAtMost
  split
  · intro hf
    simpa [holdsAtMostB, hf] using h3
  · trivial

/-- Two stakers: the second deposits 500 tokens locked for a year, against 1000 of the first not locked; later both change their
stakes, but when rewards are distributed the second has twice the stake of the first, at least. -/
def contest : List Event := [deposit 100 120 500 .oneYear 120, .tick DAY, distribute 100, deposit 100 120 300 .flex 120, claim 100 120 130,
  deposit 100 121 70 .flex 121, .tick DAY, distribute 100, claim 100 121 131, withdraw 100 121 300 121, .tick (40 * DAY),
  distribute 100, slash 100 120 10 10 none, fill 100 10000 (day0 + 1000 * DAY), .tick (400 * DAY), withdraw 100 121 500 121,
  distribute 100, .tick DAY, distribute 100, claim 100 121 131]

/-- The hypotheses of `C122_more` are met; the second has claimed 833 tokens and left the rest, the first has claimed 2929. -/
example : Reachable Demo.env ((run s0 joining).getD s0) ∧
    RunsWith Demo.env (OutstakedEvent Demo.env 100 (mine 121 100) (mine 120 100) 1 2) ((run s0 joining).getD s0) contest
      (endOf ((run s0 joining).getD s0) contest) ∧
    hasMining ((run s0 joining).getD s0).world (mine 121 100) (fun m => decide (m.accountType = 2 ∧ m.rewardPool = 100)) = true ∧
    hasMining ((run s0 joining).getD s0).world (mine 120 100) (fun m => decide (m.accountType = 2 ∧ m.rewardPool = 100)) = true ∧
    0 < (((run s0 joining).getD s0).world (mine 121 100)).lamports ∧
    0 < (((run s0 joining).getD s0).world (mine 120 100)).lamports ∧
    hasPool (endOf ((run s0 joining).getD s0) contest).world 100 (fun p => decide (p.cumulative.length < Demo.env.caps.index)) = true ∧
    totalIn Demo.env (claimedBy Demo.env (mine 120 100)) ((run s0 joining).getD s0) contest = 833 ∧
    totalIn Demo.env (claimedBy Demo.env (mine 121 100)) ((run s0 joining).getD s0) contest = 2929 :=
  ⟨after_reachable (by decide +kernel), allPass_sound outstakedB_sound (by decide +kernel), by decide +kernel, by decide +kernel,
    by decide +kernel, by decide +kernel, by decide +kernel, by decide +kernel, by decide +kernel⟩

/-- The hypotheses of `C122_nothing` are met by a staker who deposits and withdraws again between two distributions. -/
example : RunsWith Demo.env (OutstakedEvent Demo.env 100 (mine 120 100) (mine 120 100) 0 1) ((run s0 joining).getD s0)
      [.tick DAY, distribute 100, .tick 7, deposit 100 120 500 .flex 120, withdraw 100 120 500 120, .tick DAY, distribute 100,
        claim 100 120 130]
      (endOf ((run s0 joining).getD s0) [.tick DAY, distribute 100, .tick 7, deposit 100 120 500 .flex 120,
        withdraw 100 120 500 120, .tick DAY, distribute 100, claim 100 120 130]) :=
  allPass_sound outstakedB_sound (by decide +kernel)

end Examples

end Verif
