import Verif.Lemmas.Schedule
import Verif.Props.Distribution
/-!
C67: the daily amounts of a pool that is not filled.
-/

namespace Verif

open Spec

section
variable {env : Env}

/-- C67: after a distribution of an amount `a`, whatever happens except fills (days may be skipped, stakers come and go), the
amount due on a later day is at least `a` again, as long as a whole day is left until the end of distribution; and if the
later day is the next one, it is `a` or `a + 1`.  The history of the pool must have room, and the later time must not be the
first second of a day: full claim without this, see `C67_false_midnight`. -/
theorem C67_rate_partial {s s2 : Chain} {es : List Event} {w1 : World} {accs : List AccountInfo} {ret : Option Nat} {P : Key}
    {p p2 : Pool} (hw : Wf env s.now s.world) (hs : RealSigners accs)
    (h1 : exec env s.now s.world accs .distributeRewards = .ok (w1, ret)) (hf : FirstIs accs P)
    (hp : PoolAt env s.world P p) (hl : 0 < (s.world P).lamports) (hnew : NewDay p s.now)
    (hr : CleanRun env { s with world := w1 } es s2) (hfill : totalIn env (filledBy env P) { s with world := w1 } es = 0)
    (hp2 : PoolAt env s2.world P p2) (hroom : p2.cumulative.length < env.caps.index) (hnew2 : NewDay p2 s2.now)
    (hleft : s2.now + 86400 ≤ p2.distributionEndsAt) (hmid : s2.now % 86400 ≠ 0) :
    dailyAmount p.tokensAvailable p.distributionEndsAt s.now ≤
        dailyAmount p2.tokensAvailable p2.distributionEndsAt s2.now ∧
      (midnight s2.now = midnight s.now + 86400 → s.now % 86400 ≠ 0 →
        dailyAmount p2.tokensAvailable p2.distributionEndsAt s2.now ≤
          dailyAmount p.tokensAvailable p.distributionEndsAt s.now + 1) := by
  have hw1 : Wf env s.now w1 := wf_process hw hs (by exact trivial) (exec_ok.mp h1).1
  obtain ⟨p0, p1, g1, g2, -, g4, -⟩ := C12_daily_amount hw hs h1 hf
  obtain rfl := PoolAt.unique hp g1
  have hstep := step_of_exec hw hs (by exact trivial) h1
  obtain ⟨q, k1, k2, k3, -⟩ := hstep.pool hp
  obtain rfl := PoolAt.unique g2 k1
  have hok := (poolAt_good hw hp).ok
  have hl1 : 0 < (w1 P).lamports := by rw [k3]; exact hl
  have hlen : p1.cumulative.length ≤ p2.cumulative.length := by
    obtain ⟨q, j1, j2, -⟩ := C15_history_immutable (s := { s with world := w1 }) hw1 hr g2 hl1
    rw [PoolAt.unique hp2 j1]; exact j2.length_le
  obtain ⟨T, r, -, hr1, hp1⟩ : ∃ T r, True ∧ r = dailyAmount p.tokensAvailable p.distributionEndsAt s.now ∧
      (p1.cumulative = (if p.cumulative.length < env.caps.index
        then p.cumulative ++ [(midnight s.now, p.index + 10 ^ 16 * r / T)] else p.cumulative) ∧
        p1.distributionEndsAt = p.distributionEndsAt ∧ p1.tokensAvailable = p.tokensAvailable - r) := by
    cases k2 with
    | same other => exact absurd (firstIs_iff.mp hf) (other rfl)
    | stake hi => cases hi
    | @distribute _ r acc signed amount op same ok' =>
      obtain ⟨T, -, -, -, -, hp1⟩ := distribute_new hok hnew op
      exact ⟨T, r, trivial, rewardsToDistribute_ok amount, by rw [hp1]; exact ⟨rfl, rfl, rfl⟩⟩
  obtain ⟨c1, c2, c3⟩ := hp1
  have hroom1 : p.cumulative.length < env.caps.index := by
    refine Classical.byContradiction fun hno => ?_
    rw [if_neg hno] at c1
    rw [c1] at hlen; omega
  rw [if_pos hroom1] at c1
  have hold : ¬ NewDay p1 s.now := fun h => h (midnight s.now, p.index + 10 ^ 16 * r / T) (by rw [c1]; simp) rfl
  rw [← hr1]
  have hmid0 : midnight s.now = s.now / 86400 * 86400 := rfl
  have hmid2 : midnight s2.now = s2.now / 86400 * 86400 := rfl
  have hends := hok.ends
  -- the rate is kept
  have hrate0 : r * daysToGo p1 s.now ≤ p1.tokensAvailable := by
    unfold daysToGo
    rw [if_neg hold, c2, c3]
    by_cases hd : s.now + 86400 ≤ p.distributionEndsAt
    · rw [dailyAmount_share hd] at hr1
      rw [hr1, show (p.distributionEndsAt - midnight s.now) / 86400 - 2 =
        (p.distributionEndsAt - midnight s.now) / 86400 - 1 - 1 by omega]
      refine share_left ?_ (by omega) (by omega)
      refine Nat.le_trans (Nat.mul_le_mul_left _ ?_) (Nat.div_mul_le_self _ _)
      omega
    · have : (p.distributionEndsAt - midnight s.now) / 86400 - 2 = 0 := by omega
      rw [this]; simp
  obtain ⟨r1, r2⟩ := runs_rate (s := { s with world := w1 }) hw1 hr g2 hl1 hfill hp2 hroom hrate0
  have hdays : daysToGo p2 s2.now = (p2.distributionEndsAt - s2.now) / 86400 := by
    unfold daysToGo
    rw [if_pos hnew2, r2, c2]
    rw [r2, c2] at hleft
    omega
  rw [hdays] at r1
  rw [dailyAmount_share hleft]
  have hpos : 0 < (p2.distributionEndsAt - s2.now) / 86400 := by omega
  refine ⟨(Nat.le_div_iff_mul_le hpos).mpr r1, fun hday hoff => ?_⟩
  have hA := runs_next (s := { s with world := w1 }) hw1 hr g2 hl1 hfill hp2 hroom (d := midnight s.now)
    (A := p.tokensAvailable - r) ⟨s.now, rfl, Nat.le_refl _⟩
    ⟨(midnight s.now, p.index + 10 ^ 16 * r / T), by rw [c1]; simp, rfl⟩
    (Or.inl c3)
  have hA' : p2.tokensAvailable = p.tokensAvailable - r := by
    rcases hA with h | ⟨x, hx1, hx2⟩
    · exact h
    · have hw2 : Wf env s2.now s2.world := wf_runs hw1 (fun _ _ h => h) hr
      have h3 := (poolAt_good hw2 hp2).ok.past x hx1
      have h4 := hnew2 x hx1
      omega
  clear hA
  rw [r2, c2] at hleft ⊢
  have hd : s.now + 86400 ≤ p.distributionEndsAt := by omega
  rw [dailyAmount_share hd] at hr1
  have hdd : (p.distributionEndsAt - s2.now) / 86400 = (p.distributionEndsAt - s.now) / 86400 - 1 := by omega
  rw [hA', hdd, hr1]
  exact (even_div _ _ (by omega)).2

end

section Examples
open Demo

/-- C67 for the story: on the next day 1111 tokens are distributed, and on the day after 1111 are due again (and room is left
in the history). -/
example : ∃ w', Succeeds nextDay [W 100, S 111] .distributeRewards w' := succeeds nextDay_reachable (by decide +kernel)

/-- What happens in between. -/
def dayAfter : List Event := [claim 100 121 131, distribute 100, withdraw 100 121 500 121, .tick DAY]

example : ∃ s', CleanRun Demo.env { nextDay with world := (nextDay.apply Demo.env (distribute 100)).world } dayAfter s' :=
  some_run (by decide +kernel)

example : hasPool nextDay.world 100 (fun p => hasPool (run nextDay (distribute 100 :: dayAfter) |>.getD nextDay).world 100
    fun p2 => decide (0 < (nextDay.world 100).lamports ∧ NewDay p nextDay.now ∧
      NewDay p2 (nextDay.now + DAY) ∧ p2.cumulative.length < Demo.env.caps.index ∧
      nextDay.now + DAY + 86400 ≤ p2.distributionEndsAt ∧ (nextDay.now + DAY) % 86400 ≠ 0 ∧
      dailyAmount p.tokensAvailable p.distributionEndsAt nextDay.now = 1111 ∧
      dailyAmount p2.tokensAvailable p2.distributionEndsAt (nextDay.now + DAY) = 1111)) = true := by decide +kernel

/-- C67 is false in the first second of a day: 1111 tokens are distributed one day; at the following midnight, with no fill
in between and seven days left, only 952 are due. -/
theorem C67_false_midnight : ∃ s s2 p p2, Reachable Demo.env s ∧
    CleanRun Demo.env s [distribute 100, .tick (86400 - 1100)] s2 ∧
    totalIn Demo.env (filledBy Demo.env 100) s [distribute 100, .tick (86400 - 1100)] = 0 ∧
    totalIn Demo.env (distributedBy Demo.env 100) s [distribute 100, .tick (86400 - 1100)] = 1111 ∧
    PoolAt Demo.env s.world 100 p ∧ PoolAt Demo.env s2.world 100 p2 ∧ NewDay p s.now ∧ NewDay p2 s2.now ∧
    p2.cumulative.length < Demo.env.caps.index ∧ s2.now + 7 * 86400 = p2.distributionEndsAt ∧
    dailyAmount p.tokensAvailable p.distributionEndsAt s.now = 1111 ∧
    dailyAmount p2.tokensAvailable p2.distributionEndsAt s2.now = 952 := by
  have h : hasPool nextDay.world 100 (fun p =>
    hasPool (run nextDay [distribute 100, .tick (86400 - 1100)] |>.getD nextDay).world 100 fun p2 =>
    decide (NewDay p nextDay.now ∧ NewDay p2 (nextDay.now + (86400 - 1100)) ∧
      p2.cumulative.length < Demo.env.caps.index ∧ nextDay.now + (86400 - 1100) + 7 * 86400 = p2.distributionEndsAt ∧
      dailyAmount p.tokensAvailable p.distributionEndsAt nextDay.now = 1111 ∧
      dailyAmount p2.tokensAvailable p2.distributionEndsAt (nextDay.now + (86400 - 1100)) = 952)) = true := by decide +kernel
  obtain ⟨p, h1, h2⟩ := hasPool_sound h
  obtain ⟨p2, h3, h4⟩ := hasPool_sound h2
  rw [decide_eq_true_eq] at h4
  obtain ⟨a1, a2, a3, a4, a5, a6⟩ := h4
  have hrun : run nextDay [distribute 100, .tick (86400 - 1100)] =
      some (run nextDay [distribute 100, .tick (86400 - 1100)] |>.getD nextDay) := by
    have hs : (run nextDay [distribute 100, .tick (86400 - 1100)]).isSome = true := by decide +kernel
    cases hr : run nextDay [distribute 100, .tick (86400 - 1100)] with
    | none => rw [hr] at hs; cases hs
    | some x => rfl
  have hnow : (run nextDay [distribute 100, .tick (86400 - 1100)] |>.getD nextDay).now = nextDay.now + (86400 - 1100) := by
    decide +kernel
  exact ⟨nextDay, _, p, p2, nextDay_reachable, run_sound hrun, by decide +kernel, by decide +kernel, h1, h3, a1,
    by rw [hnow]; exact a2, a3, by rw [hnow]; exact a4, a5, by rw [hnow]; exact a6⟩

end Examples

end Verif
