import Verif.Lemmas.Memory
import Verif.Lemmas.DemoIncentive
import Verif.Props.Life
/-!
C103: the program has no memory; only the present state of the stakes and of the budget matters for what is earned from now on.
-/

namespace Verif

open Spec

section
variable {env : Env}

/-- C103.  Take two histories, of any kind, that have led by now to the same budget until the same day, the same total stakes and
the same stake of the mining at `k` on every day from today on - though the stakes may have been made at different times and for
different periods, with different interruptions, and different rewards may have been distributed and paid before.  If the same
things happen from now on, the mining earns exactly the same from now on.  What its owner is paid and still owed at the end
differs only by what the mining was owed already today, and by roundings to whole tokens.  (From now on the mining must be neither
closed nor penalized, its own stake not changed in the first second of a day, and the stake delegated to it changed only when it is
up to date, as in C72; and the tables must have room.) -/
theorem C103_no_memory {P k : Key} {s t s' t' : Chain} {es es' : List Event} {m n : Mining} {p q p' q' : Pool}
    (hs : Reachable env s) (ht : Reachable env t)
    (h1 : RunsWith env (fun s e => CarefulEvent env P k s e ∧ RoomInPool env P s e ∧ RoomInTable env k s e) s es s')
    (h2 : RunsWith env (fun s e => CarefulEvent env P k s e ∧ RoomInPool env P s e ∧ RoomInTable env k s e) t es' t')
    (hal : Alike env SameEvent s t es es') (hnow : s.now = t.now)
    (hm : Proper env s.world k m) (hn : Proper env t.world k n) (hmp : m.rewardPool = P) (hnp : n.rewardPool = P)
    (hml : 0 < (s.world k).lamports) (hnl : 0 < (t.world k).lamports)
    (hp : PoolAt env s.world P p) (hq : PoolAt env t.world P q) (hpl : 0 < (s.world P).lamports)
    (hql : 0 < (t.world P).lamports) (hi : m.index ≤ p.index) (hj : n.index ≤ q.index) (ho : SameOutlook s.now p q)
    (hst : SameStanding s.now m n) (hp' : PoolAt env s'.world P p') (hq' : PoolAt env t'.world P q')
    (hroom1 : p'.cumulative.length < env.caps.index) (hroom2 : q'.cumulative.length < env.caps.index) :
    ∃ m' n', MiningAt env s'.world k m' ∧ MiningAt env t'.world k n' ∧
      s'.now = t'.now ∧ SameOutlook s'.now p' q' ∧ SameStanding s'.now m' n' ∧
      totalIn env (earnedBy env P k) t es' = totalIn env (earnedBy env P k) s es ∧
      10 ^ 16 * totalIn env (claimedBy env k) t es' + owed n' q'.cumulative + owed m p.cumulative ≤
        10 ^ 16 * totalIn env (claimedBy env k) s es + owed m' p'.cumulative + owed n q.cumulative +
          10 ^ 16 * totalIn env (roundedBy env k) s es ∧
      10 ^ 16 * totalIn env (claimedBy env k) s es + owed m' p'.cumulative + owed n q.cumulative ≤
        10 ^ 16 * totalIn env (claimedBy env k) t es' + owed n' q'.cumulative + owed m p.cumulative +
          10 ^ 16 * totalIn env (roundedBy env k) t es' := by
  obtain ⟨x1, x2, ⟨m', n', x3, x4, x5⟩, x6⟩ := outlook_runs h1 h2 hal hnow hs ht hm hn hmp hnp hml hnl hp hq hpl hql hi hj ho hst
    hp' hq' hroom1 hroom2
  obtain ⟨m1, y1, -, y3, y4⟩ := runs_life (h1.weaken fun _ _ h => h.1) hs hm hmp hml hp hpl hi hp' hroom1
  obtain ⟨n1, z1, -, z3, z4⟩ := runs_life (h2.weaken fun _ _ h => h.1) ht hn hnp hnl hq hql hj hq' hroom2
  obtain rfl := MiningAt.unique y1 x3.1
  obtain rfl := MiningAt.unique z1 x4.1
  refine ⟨m1, n1, y1, z1, x1, x2, x5, x6, ?_, ?_⟩ <;> rw [x6] at * <;> omega

/-- C103 for the pool alone: budgets and total stakes that are the same from now on lead to the same distributions. -/
theorem C103_pool {P : Key} {s t s' t' : Chain} {es es' : List Event} {p q p' q' : Pool}
    (hs : Reachable env s) (ht : Reachable env t)
    (h1 : RunsWith env (fun s e => CleanEvent env s e ∧ RoomInPool env P s e) s es s')
    (h2 : RunsWith env (fun s e => CleanEvent env s e ∧ RoomInPool env P s e) t es' t')
    (hal : Alike env SameEvent s t es es') (hnow : s.now = t.now)
    (hp : PoolAt env s.world P p) (hq : PoolAt env t.world P q) (hpl : 0 < (s.world P).lamports)
    (hql : 0 < (t.world P).lamports) (ho : SameOutlook s.now p q) (hp' : PoolAt env s'.world P p') (hq' : PoolAt env t'.world P q')
    (hroom1 : p'.cumulative.length < env.caps.index) (hroom2 : q'.cumulative.length < env.caps.index) :
    s'.now = t'.now ∧ SameOutlook s'.now p' q' ∧
      totalIn env (distributedBy env P) t es' = totalIn env (distributedBy env P) s es :=
  pool_runs_outlook h1 h2 hal hnow (reachable_wf hs) (reachable_wf ht) hp hq hpl hql ho hp' hq' hroom1 hroom2

end

/-! ### Concrete cases -/

section Examples
open Demo

/-- Executable version of `RoomInTable`. -/
def roomInTableB (k : Key) (s : Chain) : Event → Bool
  | .ix accs (.depositMining a l o d) =>
    decide (miningArg accs (.depositMining a l o d) ≠ some k) || hasMining s.world k (fun m => roomB Demo.env.caps s.now m l)
  | .ix accs (.extendStake ol l ts b a o d) =>
    decide (miningArg accs (.extendStake ol l ts b a o d) ≠ some k) || hasMining s.world k (fun m => roomB Demo.env.caps s.now m l)
  | _ => true

theorem roomInTableB_sound {k : Key} {s : Chain} {e : Event} (h : roomInTableB k s e = true) : RoomInTable Demo.env k s e := by
  cases e with
  | ix accs i =>
    cases i <;> first
      | trivial
      | (intro hk
         simp only [roomInTableB, Bool.or_eq_true, decide_eq_true_eq] at h
         rcases h with h | h
         · exact absurd hk h
         · exact roomInMiningB_sound h)
  | _ => trivial

def forgetfulB (P k : Key) (s : Chain) (e : Event) : Bool :=
  okEvent s e && (carefulB P k s e && (roomInPoolB P s e && roomInTableB k s e))

theorem forgetfulB_sound {P k : Key} (s : Chain) (e : Event) (h : forgetfulB P k s e = true) :
    e.Valid Demo.env s ∧ (CarefulEvent Demo.env P k s e ∧ RoomInPool Demo.env P s e ∧ RoomInTable Demo.env k s e) := by
  simp only [forgetfulB, Bool.and_eq_true] at h
  obtain ⟨h1, h2, h3, h4⟩ := h
  exact ⟨(okEvent_sound h1).1, carefulB_sound (okEvent_sound h1).2 h2, roomInPoolB_sound h3, roomInTableB_sound h4⟩

theorem forgetfulB_ok {P k : Key} (s : Chain) (e : Event) (h : forgetfulB P k s e = true) : okEvent s e = true := by
  simp only [forgetfulB, Bool.and_eq_true] at h; exact h.1

/-- User 120 has locked 700 tokens for three months, has received rewards, and has withdrawn 200 tokens after the lock-up period. -/
def longPast : List Event := [initPool 100, initMining 100 121, deposit 100 121 1000 .flex 121, initMining 100 120,
  deposit 100 120 700 .threeMonths 120, fill 100 10000 (day0 + 200 * DAY), .tick DAY, distribute 100, claim 100 120 130,
  .tick DAY, distribute 100, .tick (99 * DAY), withdraw 100 120 200 120]

/-- User 120 has just staked 500 tokens without a lock-up period, in a pool that was just filled for the first time. -/
def shortPast : List Event := [initPool 100, initMining 100 121, initMining 100 120, deposit 100 121 1000 .flex 121,
  .tick (101 * DAY), fill 100 9900 (day0 + 200 * DAY), deposit 100 120 500 .flex 120]

/-- What happens then. -/
def whatFollows : List Event := [distribute 100, deposit 100 121 250 .oneYear 121, .tick DAY, distribute 100,
  deposit 100 120 300 .sixMonths 120, .tick DAY, distribute 100, claim 100 120 130, .tick (5 * DAY), distribute 100]

theorem past_reachable {es : List Event} (h : allPass okEvent s0 es = true) : Reachable Demo.env (endOf s0 es) :=
  ⟨_, _, s0_genesis, allPass_sound (fun _ _ h => okEvent_sound h) h⟩

theorem dueBy_none {l : List (Nat × Nat)} (h : ∀ e ∈ l, e.2 = 0) (x : Nat) : dueBy l x = 0 := by
  simp only [dueBy, List.sum_eq_zero_iff_forall_eq_nat, List.mem_map, List.mem_filter]
  rintro y ⟨e, ⟨he, -⟩, rfl⟩
  exact h e he

/-- Pools without dated stakes. -/
theorem outlook_of {P : Key} {s t : Chain} {now a e x : Nat} {b : Bool}
    (h1 : hasPool s.world P (fun p => decide (p.tokensAvailable = a ∧ p.distributionEndsAt = e ∧ p.totalShare = x ∧ (∀ e ∈ p.diffs, e.2 = 0) ∧
      decide (NewDay p now) = b)) = true)
    (h2 : hasPool t.world P (fun p => decide (p.tokensAvailable = a ∧ p.distributionEndsAt = e ∧ p.totalShare = x ∧ (∀ e ∈ p.diffs, e.2 = 0) ∧
      decide (NewDay p now) = b)) = true) :
    ∃ p q, PoolAt Demo.env s.world P p ∧ PoolAt Demo.env t.world P q ∧ SameOutlook now p q := by
  obtain ⟨p, hp, hb⟩ := hasPool_sound h1
  obtain ⟨q, hq, hc⟩ := hasPool_sound h2
  obtain ⟨b1, b2, b3, b4, b5⟩ := of_decide_eq_true hb
  obtain ⟨c1, c2, c3, c4, c5⟩ := of_decide_eq_true hc
  refine ⟨p, q, hp, hq, c1.trans b1.symm, c2.trans b2.symm, ?_, fun y _ => ?_⟩
  · rw [← decide_eq_decide, b5, c5]
  · simp only [totalOn, b3, c3, dueBy_none b4, dueBy_none c4]

/-- Minings without dated stakes. -/
theorem standing_of {k P : Key} {s t : Chain} {now a x : Nat}
    (h1 : hasMining s.world k (fun m => decide (m.stakeFromOthers = a ∧ m.share = x ∧ (∀ e ∈ m.diffs, e.2 = 0) ∧ m.accountType = 2 ∧
      m.rewardPool = P)) = true)
    (h2 : hasMining t.world k (fun m => decide (m.stakeFromOthers = a ∧ m.share = x ∧ (∀ e ∈ m.diffs, e.2 = 0) ∧ m.accountType = 2 ∧
      m.rewardPool = P)) = true) :
    ∃ m n, Proper Demo.env s.world k m ∧ Proper Demo.env t.world k n ∧ m.rewardPool = P ∧ n.rewardPool = P ∧
      SameStanding now m n := by
  obtain ⟨p, hp, hb⟩ := hasMining_sound h1
  obtain ⟨q, hq, hc⟩ := hasMining_sound h2
  obtain ⟨b1, b2, b3, b4, b5⟩ := of_decide_eq_true hb
  obtain ⟨c1, c2, c3, c4, c5⟩ := of_decide_eq_true hc
  refine ⟨p, q, ⟨hp, b4⟩, ⟨hq, c4⟩, b5, c5, c1.trans b1.symm, fun y _ => ?_⟩
  simp only [weightOn, b2, c2, dueBy_none b3, dueBy_none c3]

/-- The hypotheses of `C103_no_memory` (and so those of `C103_pool`) are met by the two pasts: the user earns 133.88 tokens in
both futures, though 119 tokens are paid in one and 90 in the other. -/
example : Reachable Demo.env (endOf s0 longPast) ∧ Reachable Demo.env (endOf s0 shortPast) ∧
    RunsWith Demo.env (fun s e => CarefulEvent Demo.env 100 (mine 120 100) s e ∧ RoomInPool Demo.env 100 s e ∧
      RoomInTable Demo.env (mine 120 100) s e) (endOf s0 longPast) whatFollows (endOf (endOf s0 longPast) whatFollows) ∧
    RunsWith Demo.env (fun s e => CarefulEvent Demo.env 100 (mine 120 100) s e ∧ RoomInPool Demo.env 100 s e ∧
      RoomInTable Demo.env (mine 120 100) s e) (endOf s0 shortPast) whatFollows (endOf (endOf s0 shortPast) whatFollows) ∧
    Alike Demo.env SameEvent (endOf s0 longPast) (endOf s0 shortPast) whatFollows whatFollows ∧
    (endOf s0 longPast).now = (endOf s0 shortPast).now ∧
    (∃ m n, Proper Demo.env (endOf s0 longPast).world (mine 120 100) m ∧
      Proper Demo.env (endOf s0 shortPast).world (mine 120 100) n ∧ m.rewardPool = 100 ∧ n.rewardPool = 100 ∧
      SameStanding (endOf s0 longPast).now m n) ∧
    0 < ((endOf s0 longPast).world (mine 120 100)).lamports ∧ 0 < ((endOf s0 shortPast).world (mine 120 100)).lamports ∧
    (∃ p q, PoolAt Demo.env (endOf s0 longPast).world 100 p ∧ PoolAt Demo.env (endOf s0 shortPast).world 100 q ∧
      SameOutlook (endOf s0 longPast).now p q) ∧
    0 < ((endOf s0 longPast).world 100).lamports ∧ 0 < ((endOf s0 shortPast).world 100).lamports ∧
    hasMining (endOf s0 longPast).world (mine 120 100) (fun m => hasPool (endOf s0 longPast).world 100 fun p =>
      decide (m.index ≤ p.index)) = true ∧
    hasMining (endOf s0 shortPast).world (mine 120 100) (fun m => hasPool (endOf s0 shortPast).world 100 fun p =>
      decide (m.index ≤ p.index)) = true ∧
    hasPool (endOf (endOf s0 longPast) whatFollows).world 100 (fun p => decide (p.cumulative.length < Demo.env.caps.index)) = true ∧
    hasPool (endOf (endOf s0 shortPast) whatFollows).world 100 (fun p => decide (p.cumulative.length < Demo.env.caps.index)) = true ∧
    totalIn Demo.env (earnedBy Demo.env 100 (mine 120 100)) (endOf s0 longPast) whatFollows = 1338809523809522500 ∧
    totalIn Demo.env (claimedBy Demo.env (mine 120 100)) (endOf s0 longPast) whatFollows = 119 ∧
    totalIn Demo.env (claimedBy Demo.env (mine 120 100)) (endOf s0 shortPast) whatFollows = 90 :=
  ⟨past_reachable (by decide +kernel), past_reachable (by decide +kernel), allPass_sound forgetfulB_sound (by decide +kernel),
    allPass_sound forgetfulB_sound (by decide +kernel),
    allPass_alike (c := okEvent) (c' := okEvent) (fun _ _ h => h) (fun _ _ h => h) (by decide +kernel) (by decide +kernel),
    by decide +kernel,
    standing_of (a := 0) (x := 500) (by decide +kernel) (by decide +kernel), by decide +kernel, by decide +kernel,
    outlook_of (a := 9900) (e := 1745280000) (x := 1500) (b := true) (by decide +kernel) (by decide +kernel),
    by decide +kernel, by decide +kernel, by decide +kernel, by decide +kernel, by decide +kernel, by decide +kernel,
    by decide +kernel, by decide +kernel, by decide +kernel⟩

end Examples

end Verif
