import Verif.Lemmas.Superpose
import Verif.Props.Ratio
/-!
C123: the rewards from several budgets add up.
-/

namespace Verif

open Spec

section
variable {env : Env}

/-- C123, the pool.  Three histories with the same events, except that every amount with which a vault is filled in the first is
divided between the second and the third.  If a pool has at the beginning had its distributions on the same days and lasts until
the same day in all three, then this stays so; and what is distributed, and what is left of the budget, in the first is what is
distributed or left in the other two together, up to 4 units of the reward token for every distribution (and what did not add up
at the beginning). -/
theorem C123_budget {P : Key} {es es' es'' : List Event} {s t u s' t' u' : Chain} (hs : Reachable env s) (ht : Reachable env t)
    (hu : Reachable env u) (h1 : RunsWith env (CleanEvent env) s es s') (h2 : RunsWith env (CleanEvent env) t es' t')
    (h3 : RunsWith env (CleanEvent env) u es'' u') (hal : AlikeThree env s t u es es' es'') (hst : s.now = t.now)
    (hsu : s.now = u.now) {p q o p' q' o' : Pool} (hp : PoolAt env s.world P p) (hq : PoolAt env t.world P q)
    (ho : PoolAt env u.world P o) (hpl : 0 < (s.world P).lamports) (hql : 0 < (t.world P).lamports)
    (hol : 0 < (u.world P).lamports) (hd : SameCalendar p q) (hd' : SameCalendar p o) (hp' : PoolAt env s'.world P p')
    (hq' : PoolAt env t'.world P q') (ho' : PoolAt env u'.world P o') (hroom : p'.cumulative.length < env.caps.index) :
    SameCalendar p' q' ∧ SameCalendar p' o' ∧
      gap (totalIn env (distributedBy env P) s es)
          (totalIn env (distributedBy env P) t es' + totalIn env (distributedBy env P) u es'') +
          gap p'.tokensAvailable (q'.tokensAvailable + o'.tokensAvailable) ≤
        gap p.tokensAvailable (q.tokensAvailable + o.tokensAvailable) +
          4 * (p'.cumulative.length - p.cumulative.length) := by
  obtain ⟨x1, x2, x3⟩ := shared_runs h1 h2 h3 hal hst hsu (reachable_wf hs) (reachable_wf ht) (reachable_wf hu) hp hq ho hpl hql hol
    hd hd' hp' hq' ho' hroom
  have := gap_totals (P := P) hal
  exact ⟨x1, x2, by omega⟩

/-- C123, the stakers.  Three histories with the same events, except that every amount with which a vault is filled in the first
is divided between the second and the third, starting with states that differ only in the rewards.  What the mining at `k` has been
paid and is still owed in the first, beyond what it was owed at the beginning, is what it has been paid and is owed in the second
and in the third together, up to 4 units of the reward token for every distribution, one for every rounding to whole tokens, and
10^(-16) (or twice that) for every unit of stake in every distribution. -/
theorem C123_rewards (hi : env.PdaInjective) {P V k : Key} {es0 es es' es'' : List Event} {s0 s t u s' t' u' : Chain}
    (hg : Genesis env s0) (r0 : RunsWith env (Orderly env P V) s0 es0 s) (ht : Reachable env t) (hu : Reachable env u)
    (h1 : RunsWith env (fun s e => Orderly env P V s e ∧ CarefulEvent env P k s e) s es s')
    (h2 : RunsWith env (CarefulEvent env P k) t es' t') (h3 : RunsWith env (CarefulEvent env P k) u es'' u')
    (hal : AlikeThree env s t u es es' es'') (hst : s.now = t.now) (hsu : s.now = u.now) (hn64 : s'.now < 2 ^ 64)
    (sameT : SameButRewards env s.world t.world) (sameU : SameButRewards env s.world u.world) {m n o : Mining}
    (hm : Proper env s.world k m) (hn : MiningAt env t.world k n) (ho : MiningAt env u.world k o) (hpool : m.rewardPool = P)
    (hml : 0 < (s.world k).lamports) (hnl : 0 < (t.world k).lamports) (hol : 0 < (u.world k).lamports)
    {p q r p' q' r' : Pool} (hp : PoolAt env s.world P p) (hq : PoolAt env t.world P q) (hr : PoolAt env u.world P r)
    (hpl : 0 < (s.world P).lamports) (hql : 0 < (t.world P).lamports) (hrl : 0 < (u.world P).lamports)
    (hV : env.findVault P p.rewardMint = some (V, p.bump)) (hd : SameCalendar p q) (hd' : SameCalendar p r)
    (hi1 : m.index ≤ p.index) (hi2 : n.index ≤ q.index) (hi3 : o.index ≤ r.index) (hp' : PoolAt env s'.world P p')
    (hq' : PoolAt env t'.world P q') (hr' : PoolAt env u'.world P r') (hroom : p'.cumulative.length < env.caps.index) :
    ∃ m' n' o', MiningAt env s'.world k m' ∧ MiningAt env t'.world k n' ∧ MiningAt env u'.world k o' ∧
      (10 ^ 16 * totalIn env (claimedBy env k) s es + owed m' p'.cumulative) + owed n q.cumulative + owed o r.cumulative ≤
        (10 ^ 16 * totalIn env (claimedBy env k) t es' + owed n' q'.cumulative) +
        (10 ^ 16 * totalIn env (claimedBy env k) u es'' + owed o' r'.cumulative) + owed m p.cumulative +
        10 ^ 16 * (gap p.tokensAvailable (q.tokensAvailable + r.tokensAvailable) +
          4 * (p'.cumulative.length - p.cumulative.length) +
          totalIn env (roundedBy env k) t es' + totalIn env (roundedBy env k) u es'') +
        2 * totalIn env (stakeIn env P k) s es ∧
      (10 ^ 16 * totalIn env (claimedBy env k) t es' + owed n' q'.cumulative) +
        (10 ^ 16 * totalIn env (claimedBy env k) u es'' + owed o' r'.cumulative) + owed m p.cumulative ≤
        (10 ^ 16 * totalIn env (claimedBy env k) s es + owed m' p'.cumulative) + owed n q.cumulative + owed o r.cumulative +
        10 ^ 16 * (gap p.tokensAvailable (q.tokensAvailable + r.tokensAvailable) +
          4 * (p'.cumulative.length - p.cumulative.length) + totalIn env (roundedBy env k) s es) +
        totalIn env (stakeIn env P k) s es := by
  have hs : Reachable env s := ⟨s0, _, hg, r0.weaken fun _ _ h => h.clean⟩
  have tiedT : Tied env s.world t.world := ⟨sameT.pools, sameT.poolsBack, sameT.minings, sameT.miningsBack⟩
  have tiedU : Tied env s.world u.world := ⟨sameU.pools, sameU.poolsBack, sameU.minings, sameU.miningsBack⟩
  obtain ⟨n0, a1, a2⟩ := tiedT.minings k m hm.1 hm.2
  obtain rfl := MiningAt.unique hn a1
  obtain ⟨o0, b1, b2⟩ := tiedU.minings k m hm.1 hm.2
  obtain rfl := MiningAt.unique ho b1
  obtain ⟨x1, x2, x3⟩ := shared_runs (h1.weaken fun _ _ h => h.2.1) (h2.weaken fun _ _ h => h.1) (h3.weaken fun _ _ h => h.1) hal
    hst hsu (reachable_wf hs) (reachable_wf ht) (reachable_wf hu) hp hq hr hpl hql hrl hd hd' hp' hq' hr' hroom
  obtain ⟨m', c1, -, c3, c4⟩ := runs_life (h1.weaken fun _ _ h => h.2) hs hm hpool hml hp hpl hi1 hp' hroom
  obtain ⟨n', d1, -, d3, d4⟩ := runs_life h2 ht ⟨hn, a2.type.trans hm.2⟩ (a2.pool.trans hpool) hnl hq hql hi2 hq' (x1.length ▸ hroom)
  obtain ⟨o', e1, -, e3, e4⟩ := runs_life h3 hu ⟨ho, b2.type.trans hm.2⟩ (b2.pool.trans hpool) hol hr hrl hi3 hr' (x2.length ▸ hroom)
  obtain ⟨f1, f2⟩ := shared_earned hi hg r0 h1 h2 h3 hal hst hsu ht hu hn64 tiedT tiedU hm hpool hml hp hpl hV hi1 hp' hroom
  have g : gapThree env P s t u es es' es'' ≤ gap p.tokensAvailable (q.tokensAvailable + r.tokensAvailable) +
      4 * (p'.cumulative.length - p.cumulative.length) := by omega
  refine ⟨m', n', o', c1, d1, e1, ?_, ?_⟩
  · clear x3
    generalize gapThree env P s t u es es' es'' = G at *
    simp only [Nat.mul_add]
    omega
  · clear x3
    generalize gapThree env P s t u es es' es'' = G at *
    simp only [Nat.mul_add]
    omega

end

/-! ### Concrete cases -/

section Examples
open Demo

/-- Executable version of `SharedFill`, for events of the program and the clock. -/
def sharedB : Event → Event → Event → Bool
  | .ix accs (.fillVault r x), .ix accs' (.fillVault r' x'), .ix accs'' (.fillVault r'' x'') =>
    decide (accs' = accs ∧ accs'' = accs ∧ x' = x ∧ x'' = x ∧ r = r' + r'')
  | .ix _ (.fillVault ..), _, _ => false
  | .ix accs i, .ix accs' i', .ix accs'' i'' => decide (accs' = accs ∧ accs'' = accs ∧ i' = i ∧ i'' = i)
  | .tick d, .tick d', .tick d'' => decide (d' = d ∧ d'' = d)
  | _, _, _ => false

theorem sharedB_sound {e e' e'' : Event} (h : sharedB e e' e'' = true) : SharedFill e e' e'' := by
  unfold sharedB at h
  split at h
  · obtain ⟨rfl, rfl, rfl, rfl, h'⟩ := of_decide_eq_true h
    exact ⟨_, _, rfl, rfl, h'⟩
  · cases h
  · rename_i h0 h1
    obtain ⟨rfl, rfl, rfl, rfl⟩ := of_decide_eq_true h
    unfold SharedFill
    split
    · rename_i h2
      cases h2
      exact (h1 _ _ rfl).elim
    · rename_i h2
      cases h2
    · exact ⟨rfl, rfl⟩
  · obtain ⟨rfl, rfl⟩ := of_decide_eq_true h
    exact ⟨rfl, rfl⟩
  · cases h

/-- Executable version of `AlikeThree`. -/
def alikeThreeB : Chain → Chain → Chain → List Event → List Event → List Event → Bool
  | _, _, _, [], [], [] => true
  | s, t, u, e :: es, e' :: es', e'' :: es'' =>
    sharedB e e' e'' && decide (goesThrough Demo.env s e = goesThrough Demo.env t e') &&
      decide (goesThrough Demo.env s e = goesThrough Demo.env u e'') &&
      alikeThreeB (s.apply Demo.env e) (t.apply Demo.env e') (u.apply Demo.env e'') es es' es''
  | _, _, _, _, _, _ => false

theorem alikeThreeB_sound {es es' es'' : List Event} {s t u : Chain} (h : alikeThreeB s t u es es' es'' = true) :
    AlikeThree Demo.env s t u es es' es'' := by
  induction es generalizing s t u es' es'' with
  | nil =>
    cases es' with
    | cons => cases es'' <;> simp [alikeThreeB] at h
    | nil =>
      cases es'' with
      | nil => trivial
      | cons => simp [alikeThreeB] at h
  | cons e es ih =>
    cases es' with
    | nil => cases es'' <;> simp [alikeThreeB] at h
    | cons e' es' =>
      cases es'' with
      | nil => simp [alikeThreeB] at h
      | cons e'' es'' =>
        simp only [alikeThreeB, Bool.and_eq_true, decide_eq_true_eq] at h
        exact ⟨sharedB_sound h.1.1.1, h.1.1.2, h.1.2, ih h.2⟩

/-- The hypotheses of `C123_rewards` (and of `C123_budget`) are met by three histories with a budget of 3300 and 300 tokens,
divided into 1147 and 2153, and 101 and 199. -/
example : Demo.env.PdaInjective ∧ Genesis Demo.env s0 ∧
    RunsWith Demo.env (Orderly Demo.env 100 (vaultOf 100 101)) s0 (ratioPast 3300) (endOf s0 (ratioPast 3300)) ∧
    Reachable Demo.env (endOf s0 (ratioPast 1147)) ∧ Reachable Demo.env (endOf s0 (ratioPast 2153)) ∧
    RunsWith Demo.env (fun s e => Orderly Demo.env 100 (vaultOf 100 101) s e ∧ CarefulEvent Demo.env 100 (mine 120 100) s e)
      (endOf s0 (ratioPast 3300)) (ratioNext 300) (endOf (endOf s0 (ratioPast 3300)) (ratioNext 300)) ∧
    RunsWith Demo.env (CarefulEvent Demo.env 100 (mine 120 100)) (endOf s0 (ratioPast 1147)) (ratioNext 101)
      (endOf (endOf s0 (ratioPast 1147)) (ratioNext 101)) ∧
    RunsWith Demo.env (CarefulEvent Demo.env 100 (mine 120 100)) (endOf s0 (ratioPast 2153)) (ratioNext 199)
      (endOf (endOf s0 (ratioPast 2153)) (ratioNext 199)) ∧
    AlikeThree Demo.env (endOf s0 (ratioPast 3300)) (endOf s0 (ratioPast 1147)) (endOf s0 (ratioPast 2153))
      (ratioNext 300) (ratioNext 101) (ratioNext 199) ∧
    SameButRewards Demo.env (endOf s0 (ratioPast 3300)).world (endOf s0 (ratioPast 1147)).world ∧
    SameButRewards Demo.env (endOf s0 (ratioPast 3300)).world (endOf s0 (ratioPast 2153)).world := by
  have careful : ∀ {s : Chain} {es : List Event}, allPass (fun s e => okEvent s e && carefulB 100 (mine 120 100) s e) s es = true →
      RunsWith Demo.env (CarefulEvent Demo.env 100 (mine 120 100)) s es (endOf s es) := fun h =>
    allPass_sound (c := fun s e => okEvent s e && carefulB 100 (mine 120 100) s e) (fun s e h => by
      simp only [Bool.and_eq_true] at h
      obtain ⟨h1, h2⟩ := okEvent_sound h.1
      exact ⟨h1, carefulB_sound h2 h.2⟩) h
  refine ⟨env_injective, s0_genesis, allPass_sound (fun _ _ h => orderlyB_sound h) (by decide +kernel),
    ⟨_, _, s0_genesis, allPass_sound (fun _ _ h => okEvent_sound h) (by decide +kernel)⟩,
    ⟨_, _, s0_genesis, allPass_sound (fun _ _ h => okEvent_sound h) (by decide +kernel)⟩, ?_, careful (by decide +kernel),
    careful (by decide +kernel), alikeThreeB_sound (by decide +kernel), ratio_pasts (by decide +kernel), ratio_pasts (by decide +kernel)⟩
  refine allPass_sound (c := fun s e => orderlyB 100 (vaultOf 100 101) s e && carefulB 100 (mine 120 100) s e) (fun s e h => ?_)
    (by decide +kernel)
  simp only [Bool.and_eq_true] at h
  obtain ⟨h1, h2⟩ := orderlyB_sound h.1
  exact ⟨h1, h2, carefulB_sound h2.clean h.2⟩

/-- The remaining hypotheses about the accounts at the beginning and at the end; 618 tokens are paid in the first history and in
the other two together. -/
example : (endOf s0 (ratioPast 3300)).now = (endOf s0 (ratioPast 1147)).now ∧
    (endOf s0 (ratioPast 3300)).now = (endOf s0 (ratioPast 2153)).now ∧
    hasPool (endOf s0 (ratioPast 3300)).world 100 (fun p => hasPool (endOf s0 (ratioPast 1147)).world 100 (fun q =>
      hasPool (endOf s0 (ratioPast 2153)).world 100 (fun r =>
      hasMining (endOf s0 (ratioPast 3300)).world (mine 120 100) (fun m => hasMining (endOf s0 (ratioPast 1147)).world (mine 120 100)
        (fun n => hasMining (endOf s0 (ratioPast 2153)).world (mine 120 100) (fun o =>
          decide (m.accountType = 2 ∧ m.rewardPool = 100 ∧ m.index ≤ p.index ∧ n.index ≤ q.index ∧ o.index ≤ r.index ∧
          Demo.env.findVault 100 p.rewardMint = some (vaultOf 100 101, p.bump) ∧
          p.cumulative.map (·.1) = q.cumulative.map (·.1) ∧ p.distributionEndsAt = q.distributionEndsAt ∧
          p.cumulative.map (·.1) = r.cumulative.map (·.1) ∧ p.distributionEndsAt = r.distributionEndsAt))))))) = true ∧
    hasPool (endOf (endOf s0 (ratioPast 3300)) (ratioNext 300)).world 100 (fun p =>
      decide (p.cumulative.length < Demo.env.caps.index)) = true ∧
    hasPool (endOf (endOf s0 (ratioPast 1147)) (ratioNext 101)).world 100 (fun _ => true) = true ∧
    hasPool (endOf (endOf s0 (ratioPast 2153)) (ratioNext 199)).world 100 (fun _ => true) = true ∧
    totalIn Demo.env (claimedBy Demo.env (mine 120 100)) (endOf s0 (ratioPast 3300)) (ratioNext 300) = 618 ∧
    totalIn Demo.env (claimedBy Demo.env (mine 120 100)) (endOf s0 (ratioPast 1147)) (ratioNext 101) +
      totalIn Demo.env (claimedBy Demo.env (mine 120 100)) (endOf s0 (ratioPast 2153)) (ratioNext 199) = 618 :=
  ⟨by decide +kernel, by decide +kernel, by decide +kernel, by decide +kernel, by decide +kernel, by decide +kernel,
    by decide +kernel, by decide +kernel⟩

end Examples

end Verif
