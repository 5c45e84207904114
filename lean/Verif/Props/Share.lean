import Verif.Lemmas.Share
import Verif.Props.Life
import Verif.Props.Distribution
import Verif.Lemmas.DemoIncentive
/-!
C106: a steady share of the stake earns the same share of the tokens, whenever they are distributed.
-/

namespace Verif

open Spec

section
variable {env : Env} {a b : Nat}

/-- C106, at most: a mining that at every distribution has at most the share `a / b` of the pool's stake is paid (and owed in addition
to what it was owed at the beginning) at most `a / b` of the tokens that leave the budget. -/
theorem C106_at_most {P k : Key} {s s' : Chain} {es : List Event} {m : Mining} {p p' : Pool} (hre : Reachable env s)
    (hr : RunsWith env (fun s e => CarefulEvent env P k s e ∧ Shares env P k (fun x T => b * x ≤ a * T) s e) s es s')
    (hm : Proper env s.world k m) (hpool : m.rewardPool = P) (hml : 0 < (s.world k).lamports) (hp : PoolAt env s.world P p)
    (hpl : 0 < (s.world P).lamports) (hidx : m.index ≤ p.index) (hp' : PoolAt env s'.world P p')
    (hroom : p'.cumulative.length < env.caps.index) :
    ∃ m', MiningAt env s'.world k m' ∧
      b * (10 ^ 16 * totalIn env (claimedBy env k) s es + owed m' p'.cumulative) + 10 ^ 16 * (a * p'.tokensAvailable) ≤
        b * owed m p.cumulative + 10 ^ 16 * (a * (p.tokensAvailable + totalIn env (filledBy env P) s es)) := by
  obtain ⟨m', h1, h2, -⟩ := C72_life hre (hr.weaken fun _ _ h => h.1) hm hpool hml hp hpl hidx hp' hroom
  refine ⟨m', h1, ?_⟩
  have h3 := earned_most (a := a) (b := b) (reachable_wf hre) (hr.weaken fun _ _ h => ⟨h.1.1, h.2⟩)
  obtain ⟨q, h4, h5⟩ := C11_budget_history (reachable_wf hre) (hr.weaken fun _ _ h => h.1.1) hp hpl
  obtain rfl := PoolAt.unique hp' h4
  rw [← h5, Nat.mul_add a]
  have h6 := Nat.mul_le_mul_left b h2
  rw [Nat.mul_add b (owed m p.cumulative)] at h6
  omega

/-- C106, at least: a mining that at every distribution has at least the share `a / b` of the pool's stake is paid or owed at least
`a / b` of the tokens that leave the budget, except for one token whenever it is brought up to date and 10^(-16) token per unit of its
stake and distribution. -/
theorem C106_at_least {P k : Key} {s s' : Chain} {es : List Event} {m : Mining} {p p' : Pool} (hre : Reachable env s)
    (hr : RunsWith env (fun s e => CarefulEvent env P k s e ∧ Shares env P k (fun x T => a * T ≤ b * x) s e) s es s')
    (hm : Proper env s.world k m) (hpool : m.rewardPool = P) (hml : 0 < (s.world k).lamports) (hp : PoolAt env s.world P p)
    (hpl : 0 < (s.world P).lamports) (hidx : m.index ≤ p.index) (hp' : PoolAt env s'.world P p')
    (hroom : p'.cumulative.length < env.caps.index) :
    ∃ m', MiningAt env s'.world k m' ∧
      b * owed m p.cumulative + 10 ^ 16 * (a * (p.tokensAvailable + totalIn env (filledBy env P) s es)) ≤
        b * (10 ^ 16 * totalIn env (claimedBy env k) s es + owed m' p'.cumulative) + 10 ^ 16 * (a * p'.tokensAvailable) +
          b * (10 ^ 16 * totalIn env (roundedBy env k) s es + totalIn env (stakeIn env P k) s es) := by
  obtain ⟨m', h1, -, h2⟩ := C72_life hre (hr.weaken fun _ _ h => h.1) hm hpool hml hp hpl hidx hp' hroom
  refine ⟨m', h1, ?_⟩
  have h3 := earned_least (a := a) (b := b) (reachable_wf hre) (hr.weaken fun _ _ h => ⟨h.1.1, h.2⟩)
  obtain ⟨q, h4, h5⟩ := C11_budget_history (reachable_wf hre) (hr.weaken fun _ _ h => h.1.1) hp hpl
  obtain rfl := PoolAt.unique hp' h4
  rw [← h5, Nat.mul_add a]
  have h6 := Nat.mul_le_mul_left b h2
  simp only [Nat.mul_add b] at *
  omega

/-- C106, whenever: two histories (of the same or of different pools and minings) in which a mining has at every distribution the
same share `a / b` of its pool's stake, and in which the same amount leaves the budget.  However the distributions are spread over the
days, the mining gets the same, except for the roundings. -/
theorem C106_whenever (hb : 0 < b) {P k Q l : Key} {s s' t t' : Chain} {es fs : List Event} {m n : Mining} {p p' q q' : Pool}
    (hs : Reachable env s) (ht : Reachable env t)
    (hr1 : RunsWith env (fun s e => CarefulEvent env P k s e ∧ Shares env P k (fun x T => b * x = a * T) s e) s es s')
    (hr2 : RunsWith env (fun s e => CarefulEvent env Q l s e ∧ Shares env Q l (fun x T => b * x = a * T) s e) t fs t')
    (hm : Proper env s.world k m) (hmp : m.rewardPool = P) (hml : 0 < (s.world k).lamports)
    (hn : Proper env t.world l n) (hnq : n.rewardPool = Q) (hnl : 0 < (t.world l).lamports)
    (hp : PoolAt env s.world P p) (hpl : 0 < (s.world P).lamports) (hmi : m.index ≤ p.index) (hp' : PoolAt env s'.world P p')
    (hproom : p'.cumulative.length < env.caps.index)
    (hq : PoolAt env t.world Q q) (hql : 0 < (t.world Q).lamports) (hni : n.index ≤ q.index) (hq' : PoolAt env t'.world Q q')
    (hqroom : q'.cumulative.length < env.caps.index)
    (hsum : p.tokensAvailable + totalIn env (filledBy env P) s es + q'.tokensAvailable =
      q.tokensAvailable + totalIn env (filledBy env Q) t fs + p'.tokensAvailable) :
    ∃ m' n', MiningAt env s'.world k m' ∧ MiningAt env t'.world l n' ∧
      10 ^ 16 * totalIn env (claimedBy env k) s es + owed m' p'.cumulative + owed n q.cumulative ≤
        10 ^ 16 * totalIn env (claimedBy env l) t fs + owed n' q'.cumulative + owed m p.cumulative +
          (10 ^ 16 * totalIn env (roundedBy env l) t fs + totalIn env (stakeIn env Q l) t fs) := by
  obtain ⟨m', h1, h2⟩ := C106_at_most (a := a) (b := b) hs (hr1.weaken fun _ _ h => ⟨h.1, fun h0 => by
    obtain ⟨m, p, x1, x2, x3⟩ := h.2 h0
    exact ⟨m, p, x1, x2, Nat.le_of_eq x3⟩⟩) hm hmp hml hp hpl hmi hp' hproom
  obtain ⟨n', h3, h4⟩ := C106_at_least (a := a) (b := b) ht (hr2.weaken fun _ _ h => ⟨h.1, fun h0 => by
    obtain ⟨m, p, x1, x2, x3⟩ := h.2 h0
    exact ⟨m, p, x1, x2, Nat.le_of_eq x3.symm⟩⟩) hn hnq hnl hq hql hni hq' hqroom
  refine ⟨m', n', h1, h3, Nat.le_of_mul_le_mul_left ?_ hb⟩
  have h5 : a * (p.tokensAvailable + totalIn env (filledBy env P) s es) + a * q'.tokensAvailable =
      a * (q.tokensAvailable + totalIn env (filledBy env Q) t fs) + a * p'.tokensAvailable := by
    rw [← Nat.mul_add, hsum, Nat.mul_add]
  generalize a * (p.tokensAvailable + totalIn env (filledBy env P) s es) = A at *
  generalize a * (q.tokensAvailable + totalIn env (filledBy env Q) t fs) = B at *
  simp only [Nat.mul_add b] at *
  omega

end

/-! ### Concrete cases -/

section Examples
open Demo

/-- Executable version of `Shares`. -/
def sharesB (P k : Key) (r : Nat → Nat → Bool) (s : Chain) (e : Event) : Bool :=
  decide (distributedBy Demo.env P s e = 0) || hasMining s.world k fun m => hasPool s.world P fun p =>
    r (earningOn m (midnight s.now)) (totalOn p (midnight s.now)).toNat

theorem sharesB_sound {P k : Key} {r : Nat → Nat → Bool} {R : Nat → Nat → Prop} (hr : ∀ x T, r x T = true → R x T) {s : Chain}
    {e : Event} (h : sharesB P k r s e = true) : Shares Demo.env P k R s e := by
  intro h0
  simp only [sharesB, Bool.or_eq_true, decide_eq_true_eq] at h
  rcases h with h | h
  · omega
  · obtain ⟨m, hm, h⟩ := hasMining_sound h
    obtain ⟨p, hp, h⟩ := hasPool_sound h
    exact ⟨m, p, hm, hp, hr _ _ h⟩

/-- Two stakers with shares of two thirds and of one third, and a budget of 3001 tokens for ten days. -/
def thirds : List Event := [initPool 100, initMining 100 121, initMining 100 120, deposit 100 121 1000 .flex 121,
  deposit 100 120 500 .flex 120, fill 100 3001 (day0 + 10 * DAY)]

/-- Distributions on seven different days; in between both stakers double their stakes. -/
def often : List Event := [distribute 100, .tick DAY, distribute 100, claim 100 120 130, .tick DAY, distribute 100,
  deposit 100 121 1000 .flex 121, deposit 100 120 500 .flex 120, .tick DAY, distribute 100, claim 100 120 130, .tick DAY,
  distribute 100, .tick (2 * DAY), distribute 100, .tick (4 * DAY), distribute 100, claim 100 120 130]

/-- A single distribution, on the last day. -/
def late : List Event := [.tick (10 * DAY), distribute 100, claim 100 120 130]

def shareRun (s : Chain) (e : Event) : Bool :=
  okEvent s e && carefulB 100 (mine 120 100) s e && sharesB 100 (mine 120 100) (fun x T => decide (3 * x = 1 * T)) s e

theorem shareRun_sound {s : Chain} {es : List Event} (h : allPass shareRun s es = true) :
    RunsWith Demo.env (fun s e => CarefulEvent Demo.env 100 (mine 120 100) s e ∧
      Shares Demo.env 100 (mine 120 100) (fun x T => 3 * x = 1 * T) s e) s es (endOf s es) := by
  refine allPass_sound (c := shareRun) (fun s e h => ?_) h
  simp only [shareRun, Bool.and_eq_true] at h
  obtain ⟨h1, h2⟩ := okEvent_sound h.1.1
  exact ⟨h1, carefulB_sound h2 h.1.2, sharesB_sound (fun _ _ => of_decide_eq_true) h.2⟩

/-- The hypotheses of `C106_whenever` (hence of the other two) are met: a third of the stake at every distribution, in both histories. -/
example : Reachable Demo.env (endOf s0 thirds) ∧
    RunsWith Demo.env (fun s e => CarefulEvent Demo.env 100 (mine 120 100) s e ∧
      Shares Demo.env 100 (mine 120 100) (fun x T => 3 * x = 1 * T) s e) (endOf s0 thirds) often (endOf (endOf s0 thirds) often) ∧
    RunsWith Demo.env (fun s e => CarefulEvent Demo.env 100 (mine 120 100) s e ∧
      Shares Demo.env 100 (mine 120 100) (fun x T => 3 * x = 1 * T) s e) (endOf s0 thirds) late (endOf (endOf s0 thirds) late) :=
  ⟨⟨_, _, s0_genesis, allPass_sound (fun _ _ h => okEvent_sound h) (by decide +kernel)⟩, shareRun_sound (by decide +kernel),
    shareRun_sound (by decide +kernel)⟩

/-- The remaining hypotheses: both histories spend the same.  The mining is paid 1000 of the 3001 tokens, in seven distributions as in a
single one. -/
example : 0 < ((endOf s0 thirds).world (mine 120 100)).lamports ∧ 0 < ((endOf s0 thirds).world 100).lamports ∧
    hasPool (endOf s0 thirds).world 100 (fun p => hasMining (endOf s0 thirds).world (mine 120 100) (fun m =>
      decide (m.accountType = 2 ∧ m.rewardPool = 100 ∧ m.index ≤ p.index))) = true ∧
    hasPool (endOf (endOf s0 thirds) often).world 100 (fun p =>
      decide (p.cumulative.length < Demo.env.caps.index ∧ p.tokensAvailable = 0)) = true ∧
    hasPool (endOf (endOf s0 thirds) late).world 100 (fun p =>
      decide (p.cumulative.length < Demo.env.caps.index ∧ p.tokensAvailable = 0)) = true ∧
    totalIn Demo.env (filledBy Demo.env 100) (endOf s0 thirds) often = totalIn Demo.env (filledBy Demo.env 100) (endOf s0 thirds) late ∧
    totalIn Demo.env (claimedBy Demo.env (mine 120 100)) (endOf s0 thirds) often = 1000 ∧
    totalIn Demo.env (claimedBy Demo.env (mine 120 100)) (endOf s0 thirds) late = 1000 :=
  ⟨by decide +kernel, by decide +kernel, by decide +kernel, by decide +kernel, by decide +kernel, by decide +kernel,
    by decide +kernel, by decide +kernel⟩

end Examples

end Verif
