import Verif.Props.Deter
import Verif.Lemmas.SplitExec
/-!
C113: the larger the penalty, the less is earned.
-/

namespace Verif

open Spec

section
variable {env : Env}

/-- C113.  In the same state a staker is penalized by `a` in a first history and by `b ≤ a` in a second one (the amounts are those of
the instruction), and then the same happens in both, except that the staker may claim at other times, and may be penalized again
in the first history.  On every day from then on the staker's stake earns in the first history at most as much as in the second; and
all they are paid and are still owed is at most what they are paid and owed in the second, up to one token for every rounding to
whole tokens. -/
theorem C113_harder {P k : Key} {s s1 s2 : Chain} {es es' : List Event} {m : Mining} {p p' : Pool} {accs accs' : List AccountInfo}
    {o o' : Key} {a b : Nat} {v w : World} {ret ret' : Option Nat} (hre : Reachable env s)
    (hm : Proper env s.world k m) (hpool : m.rewardPool = P) (hl : 0 < (s.world k).lamports)
    (hp : PoolAt env s.world P p) (hpl : 0 < (s.world P).lamports) (hidx : m.index ≤ p.index)
    (hs : RealSigners accs) (hx : exec env s.now s.world accs (.decreaseRewards o a) = .ok (v, ret))
    (hk : miningArg accs (.decreaseRewards o a) = some k)
    (hs' : RealSigners accs') (hx' : exec env s.now s.world accs' (.decreaseRewards o' b) = .ok (w, ret'))
    (hk' : miningArg accs' (.decreaseRewards o' b) = some k) (hab : b ≤ a)
    (h1 : RunsWith env (CarefulOrPenalty env P k) ⟨s.now, v⟩ es s1) (h2 : RunsWith env (CarefulEvent env P k) ⟨s.now, w⟩ es' s2)
    (hu : UpToAffairs env k ⟨s.now, v⟩ ⟨s.now, w⟩ es es') (hp' : PoolAt env s2.world P p')
    (hroom : p'.cumulative.length < env.caps.index) :
    s1.now = s2.now ∧ PoolAt env s1.world P p' ∧
      ∃ m1 m2, MiningAt env s1.world k m1 ∧ MiningAt env s2.world k m2 ∧
        (∀ x, midnight s2.now ≤ x → earningOn m1 x ≤ earningOn m2 x) ∧
        10 ^ 16 * totalIn env (claimedBy env k) ⟨s.now, v⟩ es + owed m1 p'.cumulative ≤
          10 ^ 16 * totalIn env (claimedBy env k) ⟨s.now, w⟩ es' + owed m2 p'.cumulative +
            10 ^ 16 * totalIn env (roundedBy env k) ⟨s.now, w⟩ es' := by
  have hw := reachable_wf hre
  have hre1 : Reachable env ⟨s.now, v⟩ := by
    have := hre.step (e := .ix accs (.decreaseRewards o a)) hs trivial
    rwa [apply_ix_ok hx] at this
  have hre2 : Reachable env ⟨s.now, w⟩ := by
    have := hre.step (e := .ix accs' (.decreaseRewards o' b)) hs' trivial
    rwa [apply_ix_ok hx'] at this
  have hpr := (exec_ok.mp hx).1
  have hpr' := (exec_ok.mp hx').1
  simp only [process, res_bind_ok, res_pure_ok, Prod.mk.injEq] at hpr hpr'
  obtain ⟨_, hpr, rfl, -⟩ := hpr
  obtain ⟨_, hpr', rfl, -⟩ := hpr'
  have hb := beside_decrease_one (beside_refl hm.1 hl) hk hpr
  have hb2 := (beside_decrease_one hb.symm hk' hpr').symm
  have hP : P ≠ k := by rintro rfl; exact PoolAt.not_mining hp hm.1
  obtain ⟨A, Q, M, rest, q, x, x1, rfl, -, -, -, -, l1, d1, rfl⟩ := processDecreaseRewards_ok hpr
  obtain ⟨A', Q', M', rest', q', y, y1, rfl, -, -, -, -, l2, d2, hwe⟩ := processDecreaseRewards_ok hpr'
  obtain rfl : M.key = k := Option.some.inj hk
  have e1 : M'.key = M.key := Option.some.inj hk'
  rw [e1] at l2 hwe
  subst hwe
  obtain rfl : m = x := Option.some.inj ((congrArg (viewMining env) hm.1.2).symm.trans l1.mview)
  obtain rfl : m = y := Option.some.inj ((congrArg (viewMining env) hm.1.2).symm.trans l2.mview)
  have hm1 : MiningAt env (putMining env s.world M.key x1) M.key x1 := putMining_at hm.1 x1
  have hm2 : MiningAt env (putMining env s.world M.key y1) M.key y1 := putMining_at hm.1 y1
  obtain ⟨z, d3, d4⟩ : ∃ z, m.decreaseRewards b = .ok z ∧ z.decreaseRewards (a - b) = .ok x1 :=
    (decrease_split x1).mp (by rw [Nat.add_sub_cancel' hab]; exact d1)
  obtain rfl : z = y1 := Except.ok.inj (d3.symm.trans d2)
  obtain ⟨f1, -, f2, f3, -⟩ := decrease_earning d4
  obtain ⟨-, -, g2, g3, -⟩ := decrease_earning d2
  have hty : ∀ {m m' : Mining} {n : Nat}, m.decreaseRewards n = .ok m' →
      m'.accountType = m.accountType ∧ m'.rewardPool = m.rewardPool := by
    intro m m' n h
    rw [decreaseRewards_ok] at h
    rcases h with ⟨-, rfl⟩ | ⟨-, -, rfl⟩ <;> exact ⟨rfl, rfl⟩
  have t2 := hty d2
  have t1 := hty d1
  have hp1 : PoolAt env (putMining env s.world M.key x1) P p := (poolAt_congr (putMining_ne _ _ hP)).mpr hp
  have hp2 : PoolAt env (putMining env s.world M.key z) P p := (poolAt_congr (putMining_ne _ _ hP)).mpr hp
  have hpl1 : 0 < (putMining env s.world M.key x1 P).lamports := by rw [putMining_ne _ _ hP]; exact hpl
  have hpl2 : 0 < (putMining env s.world M.key z P).lamports := by rw [putMining_ne _ _ hP]; exact hpl
  have pr1 : Proper env (putMining env s.world M.key x1) M.key x1 := ⟨hm1, t1.1.trans hm.2⟩
  have pr2 : Proper env (putMining env s.world M.key z) M.key z := ⟨hm2, t2.1.trans hm.2⟩
  obtain ⟨k1, k2, k3, k4⟩ := weaker_runs (P := P) (isPda_of_proper hre hm) hu h1 h2 (reachable_wf hre1) (reachable_wf hre2) rfl hb2
    pr1 hp1 hpl1 (fun a b ha hb => by
      rw [MiningAt.unique ha hm1, MiningAt.unique hb hm2]; exact decrease_weaker d4)
  have hq := beside_pool k2.symm hp'
  obtain ⟨m1, a1, -, a3⟩ := runs_penalized h1 hre1 pr1 (t1.2.trans hpool) hb2.alive hp1 hpl1 (by rw [f2, g2]; exact hidx) hq hroom
  obtain ⟨m2, b1, -, -, b4⟩ := runs_life h2 hre2 pr2 (t2.2.trans hpool) hb2.symm.alive hp2 hpl2 (by rw [g2]; exact hidx) hp' hroom
  have how : owed x1 p.cumulative ≤ owed z p.cumulative := by
    unfold owed pending
    rw [f2, f3]
    exact Nat.add_le_add_left (earned_le fun e _ => f1 _) _
  exact ⟨k1, hq, m1, m2, a1, b1, fun x hx => (k3 _ _ a1 b1).earning (by rw [k1]; exact hx), by omega⟩

end

/-! ### Concrete cases -/

section Examples
open Demo

/-- User 120 locks 500 tokens for a year and is not up to date. -/
def atFault : Chain := (run s0 (joining ++ [deposit 100 120 500 .oneYear 121, .tick DAY, distribute 100])).getD s0

def harshly : Chain := atFault.apply Demo.env (decrease 100 120 2000)
def mildly : Chain := atFault.apply Demo.env (decrease 100 120 700)

/-- What happens afterwards. -/
def afterwards : List (Where × Event) :=
  [(.both, deposit 100 120 300 .flex 120), (.both, .tick DAY), (.both, distribute 100), (.one, claim 100 120 130),
    (.one, decrease 100 120 300), (.both, claim 100 121 131), (.both, .tick (40 * DAY)), (.both, fill 100 7000 (day0 + 90 * DAY)),
    (.both, distribute 100), (.two, claim 100 120 130), (.both, withdraw 100 120 100 120),
    (.both, .tick DAY), (.both, distribute 100), (.both, claim 100 121 131), (.both, claim 100 120 130)]

/-- The hypotheses of `C113_harder` are met, with penalties of 2000 and 700. -/
example : ∃ s1 s2 accs ret ret', Reachable Demo.env atFault ∧
    hasMining atFault.world (mine 120 100)
      (fun m => hasPool atFault.world 100 fun p => decide (m.accountType = 2) && decide (m.rewardPool = 100) &&
        decide (m.index ≤ p.index)) = true ∧
    0 < (atFault.world (mine 120 100)).lamports ∧ 0 < (atFault.world 100).lamports ∧ RealSigners accs ∧
    exec Demo.env atFault.now atFault.world accs (.decreaseRewards 120 2000) = .ok (harshly.world, ret) ∧
    miningArg accs (.decreaseRewards 120 2000) = some (mine 120 100) ∧
    exec Demo.env atFault.now atFault.world accs (.decreaseRewards 120 700) = .ok (mildly.world, ret') ∧
    miningArg accs (.decreaseRewards 120 700) = some (mine 120 100) ∧
    RunsWith Demo.env (CarefulOrPenalty Demo.env 100 (mine 120 100)) ⟨atFault.now, harshly.world⟩ (firstList afterwards) s1 ∧
    RunsWith Demo.env (CarefulEvent Demo.env 100 (mine 120 100)) ⟨atFault.now, mildly.world⟩ (secondList afterwards) s2 ∧
    UpToAffairs Demo.env (mine 120 100) ⟨atFault.now, harshly.world⟩ ⟨atFault.now, mildly.world⟩ (firstList afterwards)
      (secondList afterwards) ∧
    hasPool s2.world 100 (fun p => decide (p.cumulative.length < Demo.env.caps.index)) = true ∧
    totalIn Demo.env (claimedBy Demo.env (mine 120 100)) ⟨atFault.now, harshly.world⟩ (firstList afterwards) +
      totalIn Demo.env (roundedBy Demo.env (mine 120 100)) ⟨atFault.now, mildly.world⟩ (secondList afterwards) <
      totalIn Demo.env (claimedBy Demo.env (mine 120 100)) ⟨atFault.now, mildly.world⟩ (secondList afterwards) := by
  have h1 : okEvent atFault (decrease 100 120 2000) = true := by decide +kernel
  have h2 : okEvent atFault (decrease 100 120 700) = true := by decide +kernel
  obtain ⟨ret, h3⟩ := exec_of_ok h1
  obtain ⟨ret', h4⟩ := exec_of_ok h2
  exact ⟨_, _, _, ret, ret', after_reachable (by decide +kernel), by decide +kernel, by decide +kernel, by decide +kernel,
    (okEvent_sound h1).1, h3, rfl, h4, rfl,
    allPass_sound carefulOrPenaltyB_sound (by decide +kernel), allPass_sound carefulOkB_sound (by decide +kernel),
    upToAffairsB_sound (by decide +kernel), by decide +kernel, by decide +kernel⟩

end Examples

end Verif
