import Verif.Lemmas.Ratio
import Verif.Lemmas.DemoIncentive
import Verif.Props.Life
import Verif.Props.Filling
/-!
C104: rewards are proportional to the budget.
-/

namespace Verif

open Spec

section
variable {env : Env} {a b : Nat}

/-- C104, the pool.  Two histories with the same events, except that all amounts with which vaults are filled are in the proportion
`a` to `b`.  If a pool has at the beginning had its distributions on the same days and lasts until the same day in both, then this
stays so; and both what is distributed and what is left of the budget stay in the proportion `a` to `b`, up to `2 * max a b` units
of the reward token for every distribution (and what was not in proportion at the beginning). -/
theorem C104_budget {P : Key} {es es' : List Event} {s t s' t' : Chain} (hs : Reachable env s) (ht : Reachable env t)
    (h1 : RunsWith env (CleanEvent env) s es s') (h2 : RunsWith env (CleanEvent env) t es' t')
    (hal : Alike env (RatioFill a b) s t es es') (hnow : s.now = t.now)
    {p q p' q' : Pool} (hp : PoolAt env s.world P p) (hq : PoolAt env t.world P q) (hpl : 0 < (s.world P).lamports)
    (hql : 0 < (t.world P).lamports) (hd : SameCalendar p q) (hp' : PoolAt env s'.world P p') (hq' : PoolAt env t'.world P q')
    (hroom : p'.cumulative.length < env.caps.index) :
    SameCalendar p' q' ∧
      gap (b * totalIn env (distributedBy env P) s es) (a * totalIn env (distributedBy env P) t es') +
          gap (b * p'.tokensAvailable) (a * q'.tokensAvailable) ≤
        gap (b * p.tokensAvailable) (a * q.tokensAvailable) +
          2 * max a b * (p'.cumulative.length - p.cumulative.length) := by
  obtain ⟨x1, x2⟩ := ratio_runs h1 h2 hal hnow (reachable_wf hs) (reachable_wf ht) hp hq hpl hql hd hp' hq' hroom
  refine ⟨x1, ?_⟩
  have := gap_totalIn (P := P) hal
  rw [Nat.mul_sub]
  omega

/-- C104, the stakers.  Two histories with the same events, except that all amounts with which vaults are filled are in the
proportion `a` to `b`, starting with states that differ only in the rewards.  What the mining at `k` has been paid and is still
owed, beyond what it was owed at the beginning, is in the proportion `a` to `b`, up to `2 * max a b` units of the reward token for
every distribution, `b` (`a`) units for every rounding in the first (second) history, and 10^(-16) of it for every unit of stake
in every distribution. -/
theorem C104_rewards (hi : env.PdaInjective) {P V k : Key} {es0 es es' : List Event} {s0 s t s' t' : Chain} (hg : Genesis env s0)
    (r0 : RunsWith env (Orderly env P V) s0 es0 s) (ht : Reachable env t)
    (h1 : RunsWith env (fun s e => Orderly env P V s e ∧ CarefulEvent env P k s e) s es s')
    (h2 : RunsWith env (CarefulEvent env P k) t es' t') (hal : Alike env (RatioFill a b) s t es es') (hnow : s.now = t.now)
    (hn64 : s'.now < 2 ^ 64) (hst : SameButRewards env s.world t.world) {m n : Mining} (hm : Proper env s.world k m)
    (hn : MiningAt env t.world k n) (hpool : m.rewardPool = P) (hml : 0 < (s.world k).lamports) (hnl : 0 < (t.world k).lamports)
    {p q p' q' : Pool} (hp : PoolAt env s.world P p) (hq : PoolAt env t.world P q) (hpl : 0 < (s.world P).lamports)
    (hql : 0 < (t.world P).lamports) (hV : env.findVault P p.rewardMint = some (V, p.bump)) (hd : SameCalendar p q)
    (hi1 : m.index ≤ p.index) (hi2 : n.index ≤ q.index) (hp' : PoolAt env s'.world P p') (hq' : PoolAt env t'.world P q')
    (hroom : p'.cumulative.length < env.caps.index) :
    ∃ m' n', MiningAt env s'.world k m' ∧ MiningAt env t'.world k n' ∧ SameStake m' n' ∧
      b * (10 ^ 16 * totalIn env (claimedBy env k) s es + owed m' p'.cumulative) + a * owed n q.cumulative ≤
        a * (10 ^ 16 * totalIn env (claimedBy env k) t es' + owed n' q'.cumulative) + b * owed m p.cumulative +
        10 ^ 16 * (gap (b * p.tokensAvailable) (a * q.tokensAvailable) +
          2 * max a b * (p'.cumulative.length - p.cumulative.length) + a * totalIn env (roundedBy env k) t es') +
        a * totalIn env (stakeIn env P k) s es ∧
      a * (10 ^ 16 * totalIn env (claimedBy env k) t es' + owed n' q'.cumulative) + b * owed m p.cumulative ≤
        b * (10 ^ 16 * totalIn env (claimedBy env k) s es + owed m' p'.cumulative) + a * owed n q.cumulative +
        10 ^ 16 * (gap (b * p.tokensAvailable) (a * q.tokensAvailable) +
          2 * max a b * (p'.cumulative.length - p.cumulative.length) + b * totalIn env (roundedBy env k) s es) +
        b * totalIn env (stakeIn env P k) t es' := by
  have hs : Reachable env s := ⟨s0, _, hg, r0.weaken fun _ _ h => h.clean⟩
  have tied : Tied env s.world t.world := ⟨hst.pools, hst.poolsBack, hst.minings, hst.miningsBack⟩
  obtain ⟨n0, a1, a2⟩ := tied.minings k m hm.1 hm.2
  obtain rfl := MiningAt.unique hn a1
  have hn2 : Proper env t.world k n := ⟨hn, a2.type.trans hm.2⟩
  have hnp : n.rewardPool = P := a2.pool.trans hpool
  have clean1 := h1.weaken (C' := CleanEvent env) fun _ _ h => h.2.1
  have clean2 := h2.weaken (C' := CleanEvent env) fun _ _ h => h.1
  obtain ⟨x1, x2⟩ := ratio_runs clean1 clean2 hal hnow (reachable_wf hs) (reachable_wf ht) hp hq hpl hql hd hp' hq' hroom
  obtain ⟨m', c1, -, c3, c4⟩ := runs_life (h1.weaken fun _ _ h => h.2) hs hm hpool hml hp hpl hi1 hp' hroom
  obtain ⟨n', d1, -, d3, d4⟩ := runs_life h2 ht hn2 hnp hnl hq hql hi2 hq' (x1.length ▸ hroom)
  obtain ⟨e1, e2, m2, e3⟩ := ratio_earned hi hg r0 h1 h2 hal hnow ht hn64 tied hm hpool hml hp hpl hV hi1 hp' hroom
  refine ⟨m', n', c1, d1, ?_, ?_, ?_⟩
  · obtain rfl := MiningAt.unique c1 e3.1
    obtain ⟨n2, f1, f2⟩ := (runs_tied clean1 clean2 (alike_mono (fun _ _ => ratioFill_other) hal) hnow (reachable_wf hs)
      (reachable_wf ht) tied).minings k m' c1 e3.2
    obtain rfl := MiningAt.unique d1 f1
    exact f2
  · exact ratio_combine c3 d4 e1 x2
  · have := ratio_combine (M := 2 * max a b) d3 c4 e2 x2
    omega

end

/-! ### Concrete cases -/

section Examples
open Demo

/-- Fillings in the proportion `a` to `b` with the same end. -/
def ratioB (a b : Nat) (r t r' t' : Nat) : Bool := decide (b * r = a * r' ∧ t = t')

theorem fillsB_ratio {a b : Nat} {e e' : Event} (h : fillsB (ratioB a b) e e' = true) : RatioFill a b e e' := by
  unfold fillsB at h
  split at h
  · simp only [Bool.and_eq_true, decide_eq_true_eq, ratioB] at h
    obtain ⟨rfl, h, rfl⟩ := h
    exact ⟨_, rfl, h⟩
  · rename_i h0
    obtain ⟨rfl, rfl⟩ := of_decide_eq_true h
    unfold RatioFill
    split
    · rename_i h1
      cases h1
      exact (h0 _ _ _ _ rfl rfl).elim
    · rename_i h1
      cases h1
    · rfl
  · obtain rfl := of_decide_eq_true h
    rfl
  · cases h

/-- Two stakers, one of them with a dated stake, and a budget of `r`. -/
def ratioPast (r : Nat) : List Event := [initPool 100, initMining 100 121, initMining 100 120, deposit 100 121 1000 .flex 121,
  fill 100 r (day0 + 10 * DAY), .tick 5, distribute 100, claim 100 120 130, deposit 100 120 500 .oneYear 120]

/-- What follows: more stakes, distributions, claims, another filling with `r`, a redelegation and a withdrawal. -/
def ratioNext (r : Nat) : List Event := [.tick DAY, distribute 100, claim 100 120 130, deposit 100 120 301 .flex 120, .tick DAY,
  distribute 100, claim 100 121 131, redelegate 100 120 100 120 121, claim 100 120 130, fill 100 r (day0 + 100 * DAY),
  .tick (40 * DAY), distribute 100, .tick DAY, distribute 100, withdraw 100 120 100 121, claim 100 120 130]

theorem pairB_ok {c : Chain → Event → Bool} (s : Chain) (e : Event) (h : (okEvent s e && c s e) = true) : okEvent s e = true := by
  simp only [Bool.and_eq_true] at h
  exact h.1

theorem ratio_pasts {r r' : Nat} (h : alikeB (fun _ _ _ _ => true) okEvent s0 s0 (ratioPast r) (ratioPast r') = true) :
    SameButRewards Demo.env (endOf s0 (ratioPast r)).world (endOf s0 (ratioPast r')).world := by
  obtain ⟨h1, h2, h3⟩ := alikeB_sound (f := fun _ _ _ _ => true) (R := OtherFill) (c := okEvent) (C := CleanEvent Demo.env)
    (fun _ _ => fillsB_other) (fun _ _ h => h) (fun _ _ h => (okEvent_sound h).2) h
  obtain ⟨k1, k2, k3, k4⟩ := C89_stakes_independent s0_genesis s0_genesis rfl h1 h2 h3
  refine ⟨k1, fun k q hq => ?_, k3, fun k n hn hty => ?_⟩
  · obtain ⟨p, hp, -⟩ := k2 k q hq
    exact ⟨p, hp⟩
  · obtain ⟨m, hm, hs⟩ := k4 k n hn hty
    exact ⟨m, hm, hs.type.symm.trans hty⟩

/-- The hypotheses of `C104_rewards` (and of `C104_budget`) are met by two histories with budgets in the proportion 3 to 7. -/
example : Demo.env.PdaInjective ∧ Genesis Demo.env s0 ∧
    RunsWith Demo.env (Orderly Demo.env 100 (vaultOf 100 101)) s0 (ratioPast 3300) (endOf s0 (ratioPast 3300)) ∧
    Reachable Demo.env (endOf s0 (ratioPast 7700)) ∧
    RunsWith Demo.env (fun s e => Orderly Demo.env 100 (vaultOf 100 101) s e ∧ CarefulEvent Demo.env 100 (mine 120 100) s e)
      (endOf s0 (ratioPast 3300)) (ratioNext 300) (endOf (endOf s0 (ratioPast 3300)) (ratioNext 300)) ∧
    RunsWith Demo.env (CarefulEvent Demo.env 100 (mine 120 100)) (endOf s0 (ratioPast 7700)) (ratioNext 700)
      (endOf (endOf s0 (ratioPast 7700)) (ratioNext 700)) ∧
    Alike Demo.env (RatioFill 3 7) (endOf s0 (ratioPast 3300)) (endOf s0 (ratioPast 7700)) (ratioNext 300) (ratioNext 700) ∧
    SameButRewards Demo.env (endOf s0 (ratioPast 3300)).world (endOf s0 (ratioPast 7700)).world := by
  refine ⟨env_injective, s0_genesis, allPass_sound (fun _ _ h => orderlyB_sound h) (by decide +kernel),
    ⟨_, _, s0_genesis, allPass_sound (fun _ _ h => okEvent_sound h) (by decide +kernel)⟩, ?_, ?_, ?_,
    ratio_pasts (by decide +kernel)⟩
  · refine allPass_sound (c := fun s e => orderlyB 100 (vaultOf 100 101) s e && carefulB 100 (mine 120 100) s e) (fun s e h => ?_)
      (by decide +kernel)
    simp only [Bool.and_eq_true] at h
    obtain ⟨h1, h2⟩ := orderlyB_sound h.1
    exact ⟨h1, h2, carefulB_sound h2.clean h.2⟩
  · refine allPass_sound (c := fun s e => okEvent s e && carefulB 100 (mine 120 100) s e) (fun s e h => ?_) (by decide +kernel)
    simp only [Bool.and_eq_true] at h
    obtain ⟨h1, h2⟩ := okEvent_sound h.1
    exact ⟨h1, carefulB_sound h2 h.2⟩
  · exact (alikeB_sound (f := ratioB 3 7) (c := okEvent) (C := fun _ _ => True) (fun _ _ => fillsB_ratio) (fun _ _ h => h)
      (fun _ _ _ => trivial) (by decide +kernel)).2.2

/-- The remaining hypotheses about the accounts at the beginning and at the end; 618 and 1450 tokens are paid. -/
example : (endOf s0 (ratioPast 3300)).now = (endOf s0 (ratioPast 7700)).now ∧
    (endOf (endOf s0 (ratioPast 3300)) (ratioNext 300)).now < 2 ^ 64 ∧
    0 < ((endOf s0 (ratioPast 3300)).world (mine 120 100)).lamports ∧ 0 < ((endOf s0 (ratioPast 7700)).world (mine 120 100)).lamports ∧
    0 < ((endOf s0 (ratioPast 3300)).world 100).lamports ∧ 0 < ((endOf s0 (ratioPast 7700)).world 100).lamports ∧
    hasPool (endOf s0 (ratioPast 3300)).world 100 (fun p => hasPool (endOf s0 (ratioPast 7700)).world 100 (fun q =>
      hasMining (endOf s0 (ratioPast 3300)).world (mine 120 100) (fun m => hasMining (endOf s0 (ratioPast 7700)).world (mine 120 100)
        (fun n => decide (m.accountType = 2 ∧ m.rewardPool = 100 ∧ m.index ≤ p.index ∧ n.index ≤ q.index ∧
          Demo.env.findVault 100 p.rewardMint = some (vaultOf 100 101, p.bump) ∧
          p.cumulative.map (·.1) = q.cumulative.map (·.1) ∧ p.distributionEndsAt = q.distributionEndsAt ∧
          7 * p.tokensAvailable = 20538 ∧ 3 * q.tokensAvailable = 20535))))) = true ∧
    hasPool (endOf (endOf s0 (ratioPast 3300)) (ratioNext 300)).world 100 (fun p =>
      decide (p.cumulative.length < Demo.env.caps.index)) = true ∧
    hasPool (endOf (endOf s0 (ratioPast 7700)) (ratioNext 700)).world 100 (fun _ => true) = true ∧
    totalIn Demo.env (claimedBy Demo.env (mine 120 100)) (endOf s0 (ratioPast 3300)) (ratioNext 300) = 618 ∧
    totalIn Demo.env (claimedBy Demo.env (mine 120 100)) (endOf s0 (ratioPast 7700)) (ratioNext 700) = 1450 :=
  ⟨by decide +kernel, by decide +kernel, by decide +kernel, by decide +kernel, by decide +kernel, by decide +kernel,
    by decide +kernel, by decide +kernel, by decide +kernel, by decide +kernel, by decide +kernel⟩

end Examples

end Verif
