import Verif.Lemmas.Pace
import Verif.Props.Schedule
import Verif.Lemmas.DemoIncentive
/-!
C117: fillings that pay for the days they add do not lower the daily amounts.
-/

namespace Verif

open Spec

section
variable {env : Env}

/-- **C117**.  After a distribution of an amount `a`, whatever happens (days may be skipped, stakers come and go, the vault is
filled any number of times), as long as every filling brings at least `a` tokens for each day by which it moves the end of
distribution: on every later day on which a distribution can be made with at least a whole day left, at least `a` tokens are
distributed again.  The history of the pool must have room, and the later time must not be the first second of a day. -/
theorem C117_pace {s s2 : Chain} {es : List Event} {w1 w2 : World} {accs accs' : List AccountInfo} {ret ret' : Option Nat} {P : Key}
    {p p1 p2 p3 : Pool} (hw : Wf env s.now s.world) (hs : RealSigners accs)
    (h1 : exec env s.now s.world accs .distributeRewards = .ok (w1, ret)) (hf : FirstIs accs P)
    (hp : PoolAt env s.world P p) (hl : 0 < (s.world P).lamports) (hnew : NewDay p s.now) (hp1 : PoolAt env w1 P p1)
    (hr : RunsWith env (fun s e => CleanEvent env s e ∧ PaysFor env (p.tokensAvailable - p1.tokensAvailable) P s e)
      { s with world := w1 } es s2)
    (hs' : RealSigners accs') (h2 : exec env s2.now s2.world accs' .distributeRewards = .ok (w2, ret')) (hf' : FirstIs accs' P)
    (hp2 : PoolAt env s2.world P p2) (hnew2 : NewDay p2 s2.now) (hp3 : PoolAt env w2 P p3)
    (hroom : p2.cumulative.length < env.caps.index)
    (hleft : s2.now + 86400 ≤ p2.distributionEndsAt) (hmid : s2.now % 86400 ≠ 0) :
    p.tokensAvailable - p1.tokensAvailable ≤ p2.tokensAvailable - p3.tokensAvailable := by
  have hw1 : Wf env s.now w1 := wf_process hw hs (by exact trivial) (exec_ok.mp h1).1
  have hw2 : Wf env s2.now s2.world := wf_runs (s := { s with world := w1 }) hw1 (fun _ _ h => h.1) hr
  have hok := (poolAt_good hw hp).ok
  have hok2 := (poolAt_good hw2 hp2).ok
  -- the first distribution
  obtain ⟨q, k1, k2, k3, -⟩ := (step_of_exec hw hs (by exact trivial) h1).pool hp
  obtain rfl := PoolAt.unique hp1 k1
  have hl1 : 0 < (w1 P).lamports := by rw [k3]; exact hl
  have hlen : p1.cumulative.length ≤ p2.cumulative.length := by
    obtain ⟨q, j1, j2, -⟩ := C15_history_immutable (s := { s with world := w1 }) hw1 (hr.weaken fun _ _ h => h.1) hp1 hl1
    rw [PoolAt.unique hp2 j1]; exact j2.length_le
  obtain ⟨q1, q2, n1, n2, -, n3, -⟩ := C12_daily_amount hw hs h1 hf
  obtain rfl := PoolAt.unique hp n1
  obtain rfl := PoolAt.unique hp1 n2
  obtain ⟨q1, q2, n4, n5, -, n6, -⟩ := C12_daily_amount hw2 hs' h2 hf'
  obtain rfl := PoolAt.unique hp2 n4
  obtain rfl := PoolAt.unique hp3 n5
  obtain ⟨e1, e2⟩ := n3 hnew
  obtain ⟨e3, e4⟩ := n6 hnew2
  obtain ⟨T, r, hr1, c1, c2⟩ : ∃ T r, r = dailyAmount p.tokensAvailable p.distributionEndsAt s.now ∧
      p1.cumulative = (if p.cumulative.length < env.caps.index
        then p.cumulative ++ [(midnight s.now, p.index + 10 ^ 16 * r / T)] else p.cumulative) ∧
        p1.distributionEndsAt = p.distributionEndsAt := by
    cases k2 with
    | same other => exact absurd (firstIs_iff.mp hf) (other rfl)
    | stake hi => cases hi
    | @distribute _ r acc signed amount op same ok' =>
      obtain ⟨T, -, -, -, -, hp1⟩ := distribute_new hok hnew op
      exact ⟨T, r, rewardsToDistribute_ok amount, by rw [hp1], by rw [hp1]⟩
  have hroom1 : p.cumulative.length < env.caps.index := by
    refine Classical.byContradiction fun hno => ?_
    rw [if_neg hno] at c1
    rw [c1] at hlen; omega
  rw [if_pos hroom1] at c1
  have hold : ¬ NewDay p1 s.now := fun h => h (midnight s.now, p.index + 10 ^ 16 * r / T) (by rw [c1]; simp) rfl
  have ea : p.tokensAvailable - p1.tokensAvailable = r := by omega
  have eb : p2.tokensAvailable - p3.tokensAvailable = dailyAmount p2.tokensAvailable p2.distributionEndsAt s2.now := by omega
  rw [ea] at hr ⊢
  rw [eb]
  have c3 : p1.tokensAvailable = p.tokensAvailable - r := by omega
  have hmid0 : midnight s.now = s.now / 86400 * 86400 := rfl
  have hmid2 : midnight s2.now = s2.now / 86400 * 86400 := rfl
  have hends := hok.ends
  have hends2 := hok2.ends
  have hrate0 : r * daysToGo p1 s.now ≤ p1.tokensAvailable := by
    unfold daysToGo
    rw [if_neg hold, c2, c3]
    by_cases hd : s.now + 86400 ≤ p.distributionEndsAt
    · rw [dailyAmount_share hd] at hr1
      rw [hr1, show (p.distributionEndsAt - midnight s.now) / 86400 - 2 =
        (p.distributionEndsAt - midnight s.now) / 86400 - 1 - 1 by omega]
      refine share_left ?_ (by omega) (by omega)
      refine Nat.le_trans (Nat.mul_le_mul_left _ ?_) (Nat.div_mul_le_self _ _)
      omega
    · have : (p.distributionEndsAt - midnight s.now) / 86400 - 2 = 0 := by omega
      rw [this]; simp
  have r1 := runs_pace (s := { s with world := w1 }) hw1 hr hp1 hl1 hp2 hroom hrate0
  have hdays : daysToGo p2 s2.now = (p2.distributionEndsAt - s2.now) / 86400 := by
    unfold daysToGo
    rw [if_pos hnew2]
    omega
  rw [hdays] at r1
  rw [dailyAmount_share hleft]
  exact (Nat.le_div_iff_mul_le (by omega)).mpr r1

end

section Examples

open Demo

/-- 2222 tokens are filled for two more days, which are 1111 for each. -/
def steady : List Event :=
  [claim 100 121 131, fill 100 2222 (day0 + 12 * DAY), withdraw 100 121 500 121, .tick DAY]

def paysForB (a : Nat) (P : Key) (s : Chain) (e : Event) : Bool :=
  okEvent s e && (match e with
    | .ix _ (.fillVault r e) =>
      hasPool s.world P fun p => decide (a * ((midnight e - p.distributionEndsAt) / 86400) ≤ r)
    | _ => true)

theorem paysForB_sound {a : Nat} {P : Key} (s : Chain) (e : Event) (h : paysForB a P s e = true) :
    e.Valid Demo.env s ∧ (CleanEvent Demo.env s e ∧ PaysFor Demo.env a P s e) := by
  simp only [paysForB, Bool.and_eq_true] at h
  refine ⟨(okEvent_sound h.1).1, (okEvent_sound h.1).2, ?_⟩
  have h2 := h.2
  cases e with
  | ix accs i =>
    cases i <;> try trivial
    intro _ p hp
    obtain ⟨q, hq, hb⟩ := hasPool_sound h2
    rw [PoolAt.unique hp hq]
    exact of_decide_eq_true hb
  | _ => trivial

/-- The first distribution is made. -/
def paced : Chain := { nextDay with world := (nextDay.apply Demo.env (distribute 100)).world }

/-- C117 for the story: 1111 tokens are distributed, a filling then moves the end by two days and brings 1111 for each, and on
the next day 1111 are distributed again. -/
example : (∃ w', Succeeds nextDay [W 100, S 111] .distributeRewards w') ∧
    RunsWith Demo.env (fun s e => CleanEvent Demo.env s e ∧ PaysFor Demo.env 1111 100 s e) paced steady (endOf paced steady) ∧
    okEvent (endOf paced steady) (distribute 100) = true :=
  ⟨succeeds nextDay_reachable (by decide +kernel), allPass_sound paysForB_sound (by decide +kernel), by decide +kernel⟩

example : hasPool nextDay.world 100 (fun p => hasPool paced.world 100 fun p1 => hasPool (endOf paced steady).world 100 fun p2 =>
    hasPool (endOf paced (steady ++ [distribute 100])).world 100 fun p3 =>
    decide (NewDay p nextDay.now ∧ NewDay p2 (endOf paced steady).now ∧ p2.cumulative.length < Demo.env.caps.index ∧
      (endOf paced steady).now + 86400 ≤ p2.distributionEndsAt ∧ (endOf paced steady).now % 86400 ≠ 0 ∧
      p2.distributionEndsAt = p1.distributionEndsAt + 2 * 86400 ∧
      p.tokensAvailable - p1.tokensAvailable = 1111 ∧ p2.tokensAvailable - p3.tokensAvailable = 1111)) = true := by
  decide +kernel

/-- C117 needs that the fillings pay for the days they add: after a distribution of 1111 tokens a filling of a single token that
moves the end by ninety days leaves 69 for the next day. -/
theorem C117_thin_false : ∃ s s1 s2 s3 p p1 p2 p3, Reachable Demo.env s ∧
    CleanRun Demo.env s [distribute 100] s1 ∧
    CleanRun Demo.env s1 [fill 100 1 (day0 + 100 * DAY), .tick DAY] s2 ∧
    CleanRun Demo.env s2 [distribute 100] s3 ∧
    PoolAt Demo.env s.world 100 p ∧ PoolAt Demo.env s1.world 100 p1 ∧ PoolAt Demo.env s2.world 100 p2 ∧
    PoolAt Demo.env s3.world 100 p3 ∧ NewDay p s.now ∧ NewDay p2 s2.now ∧ p2.cumulative.length < Demo.env.caps.index ∧
    s2.now + 86400 ≤ p2.distributionEndsAt ∧ s2.now % 86400 ≠ 0 ∧
    p.tokensAvailable - p1.tokensAvailable = 1111 ∧ p2.tokensAvailable - p3.tokensAvailable = 69 := by
  have h : hasPool nextDay.world 100 (fun p => hasPool (endOf nextDay [distribute 100]).world 100 fun p1 =>
    hasPool (endOf (endOf nextDay [distribute 100]) [fill 100 1 (day0 + 100 * DAY), .tick DAY]).world 100 fun p2 =>
    hasPool (endOf (endOf (endOf nextDay [distribute 100]) [fill 100 1 (day0 + 100 * DAY), .tick DAY]) [distribute 100]).world 100 fun p3 =>
    decide (NewDay p nextDay.now ∧ NewDay p2 (endOf (endOf nextDay [distribute 100]) [fill 100 1 (day0 + 100 * DAY), .tick DAY]).now ∧
      p2.cumulative.length < Demo.env.caps.index ∧
      (endOf (endOf nextDay [distribute 100]) [fill 100 1 (day0 + 100 * DAY), .tick DAY]).now + 86400 ≤ p2.distributionEndsAt ∧
      (endOf (endOf nextDay [distribute 100]) [fill 100 1 (day0 + 100 * DAY), .tick DAY]).now % 86400 ≠ 0 ∧
      p.tokensAvailable - p1.tokensAvailable = 1111 ∧ p2.tokensAvailable - p3.tokensAvailable = 69)) = true := by
    decide +kernel
  obtain ⟨p, h1, h2⟩ := hasPool_sound h
  obtain ⟨p1, h3, h4⟩ := hasPool_sound h2
  obtain ⟨p2, h5, h6⟩ := hasPool_sound h4
  obtain ⟨p3, h7, h8⟩ := hasPool_sound h6
  rw [decide_eq_true_eq] at h8
  exact ⟨nextDay, _, _, _, p, p1, p2, p3, nextDay_reachable,
    allPass_sound (fun _ _ => okEvent_sound) (by decide +kernel),
    allPass_sound (fun _ _ => okEvent_sound) (by decide +kernel),
    allPass_sound (fun _ _ => okEvent_sound) (by decide +kernel), h1, h3, h5, h7, h8⟩

end Examples

end Verif
