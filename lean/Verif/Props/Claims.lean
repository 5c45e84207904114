import Verif.Lemmas.ClaimsRun
import Verif.Props.Life
import Verif.Lemmas.DemoIncentive
/-!
C95: when and how often a staker claims.
-/

namespace Verif

open Spec

section
variable {env : Env}

theorem isPda_of_proper {s : Chain} (hre : Reachable env s) {k : Key} {m : Mining} (hm : Proper env s.world k m) :
    env.IsPda k := by
  rcases reachable_mining hre hm.1 with hb | ⟨-, hf⟩
  · have := hm.2
    rw [hb.type] at this
    cases this
  · exact Or.inl ⟨_, _, _, env.findMining_spec _ _ _ _ hf⟩

theorem near_refl {s : Chain} {k : Key} {m : Mining} (hm : MiningAt env s.world k m) (hl : 0 < (s.world k).lamports) :
    Near env s.now k s.world s.world :=
  ⟨fun _ _ => Or.inl rfl, ⟨m, m, hm, hm, .refl _ _⟩, rfl, rfl, hl⟩

/-- C95.  Take two histories from the same state in which the same happens, except that a staker claims at other times, more
often or less often, or not at all.  At the end all accounts are the same in both, but for token accounts and the staker's own
mining; everybody else has been paid the same by each claim and in total; and the staker earns with the same stake on every day to
come. -/
theorem C95_others {k : Key} {s s1 s2 : Chain} {es es' : List Event} {m : Mining} (hre : Reachable env s)
    (hm : Proper env s.world k m) (hl : 0 < (s.world k).lamports) (h1 : RunsWith env (Unharmed env k) s es s1)
    (h2 : RunsWith env (Unharmed env k) s es' s2) (hu : UpToClaims env k s s es es') :
    s1.now = s2.now ∧ (∀ j, j ≠ k → SameOrTokens env (s1.world j) (s2.world j)) ∧
      (∀ j, j ≠ k → totalIn env (claimedBy env j) s es = totalIn env (claimedBy env j) s es') ∧
      ∃ m1 m2, MiningAt env s1.world k m1 ∧ MiningAt env s2.world k m2 ∧ m1.stakeFromOthers = m2.stakeFromOthers ∧
        (s1.world k).lamports = (s2.world k).lamports ∧ ∀ x, midnight s1.now ≤ x → earningOn m1 x = earningOn m2 x := by
  obtain ⟨k1, k2, k3, -⟩ := near_runs (isPda_of_proper hre hm) hu h1 h2 (reachable_wf hre) (reachable_wf hre) rfl
    (near_refl hm.1 hl)
  obtain ⟨m1, m2, a1, a2, a3⟩ := k2.mining
  exact ⟨k1, k2.others, k3, m1, m2, a1, a2, a3.others, k2.lamports, fun x hx => a3.earning hx⟩

/-- C95, for the staker's own rewards: what they have been paid plus what they are still owed is the same in both histories, but
for the rounding to whole tokens, at most one token for every time the mining was brought up to date and for every lock that
expired. -/
theorem C95_paid {P k : Key} {s s1 s2 : Chain} {es es' : List Event} {m : Mining} {p p1 : Pool} (hre : Reachable env s)
    (hm : Proper env s.world k m) (hpool : m.rewardPool = P) (hl : 0 < (s.world k).lamports) (hp : PoolAt env s.world P p)
    (hpl : 0 < (s.world P).lamports) (hidx : m.index ≤ p.index) (h1 : RunsWith env (CarefulEvent env P k) s es s1)
    (h2 : RunsWith env (CarefulEvent env P k) s es' s2) (hu : UpToClaims env k s s es es')
    (hp1 : PoolAt env s1.world P p1) (hroom : p1.cumulative.length < env.caps.index) :
    PoolAt env s2.world P p1 ∧ ∃ m1 m2, MiningAt env s1.world k m1 ∧ MiningAt env s2.world k m2 ∧
      10 ^ 16 * totalIn env (claimedBy env k) s es + owed m1 p1.cumulative ≤
        10 ^ 16 * totalIn env (claimedBy env k) s es' + owed m2 p1.cumulative +
          10 ^ 16 * totalIn env (roundedBy env k) s es' ∧
      10 ^ 16 * totalIn env (claimedBy env k) s es' + owed m2 p1.cumulative ≤
        10 ^ 16 * totalIn env (claimedBy env k) s es + owed m1 p1.cumulative +
          10 ^ 16 * totalIn env (roundedBy env k) s es := by
  obtain ⟨-, hn, -, hear⟩ := near_runs (isPda_of_proper hre hm) hu (h1.weaken fun _ _ h => careful_unharmed h)
    (h2.weaken fun _ _ h => careful_unharmed h) (reachable_wf hre) (reachable_wf hre) rfl (near_refl hm.1 hl)
  have hp2 : PoolAt env s2.world P p1 := near_pool hn hp1
  obtain ⟨m1, a1, b1, c1⟩ := C72_life hre h1 hm hpool hl hp hpl hidx hp1 hroom
  obtain ⟨m2, a2, b2, c2⟩ := C72_life hre h2 hm hpool hl hp hpl hidx hp2 hroom
  rw [← hear P p hp hpl] at b2 c2
  exact ⟨hp2, m1, m2, a1, a2, by omega, by omega⟩

end

/-! ### Concrete cases -/

section Examples
open Demo

/-- Where an event happens: in both histories or in one of them. -/
inductive Where
  | both
  | one
  | two

def firstList : List (Where × Event) → List Event
  | [] => []
  | (.two, _) :: es => firstList es
  | (_, e) :: es => e :: firstList es

def secondList : List (Where × Event) → List Event
  | [] => []
  | (.one, _) :: es => secondList es
  | (_, e) :: es => e :: secondList es

def claimOfB (k : Key) : Event → Bool
  | .ix accs .claim => decide (miningArg accs .claim = some k)
  | _ => false

def upToClaimsB (k : Key) : Chain → Chain → List (Where × Event) → Bool
  | _, _, [] => true
  | s, t, (.both, e) :: es => okEvent s e && okEvent t e && upToClaimsB k (s.apply Demo.env e) (t.apply Demo.env e) es
  | s, t, (.one, e) :: es => claimOfB k e && upToClaimsB k (s.apply Demo.env e) t es
  | s, t, (.two, e) :: es => claimOfB k e && upToClaimsB k s (t.apply Demo.env e) es

theorem claimOfB_sound {k : Key} {e : Event} (h : claimOfB k e = true) : ClaimOf k e := by
  unfold claimOfB at h
  split at h
  · exact of_decide_eq_true (p := miningArg _ _ = _) h
  · cases h

theorem upToClaimsB_sound {k : Key} {es : List (Where × Event)} : ∀ {s t : Chain}, upToClaimsB k s t es = true →
    UpToClaims Demo.env k s t (firstList es) (secondList es) := by
  induction es with
  | nil => exact fun _ => .done
  | cons a es ih =>
    intro s t h
    obtain ⟨x, e⟩ := a
    cases x <;> simp only [upToClaimsB, Bool.and_eq_true] at h
    · refine .both (Or.inl rfl) ?_ (ih h.2)
      cases e with
      | ix accs i =>
        obtain ⟨r, h1⟩ := exec_of_ok h.1.1
        obtain ⟨r', h2⟩ := exec_of_ok h.1.2
        simp [goesThrough, succeeded, h1, h2]
      | _ => rfl
    · exact .first (claimOfB_sound h.1) (ih h.2)
    · exact .second (claimOfB_sound h.1) (ih h.2)

def carefulOkB (P k : Key) (s : Chain) (e : Event) : Bool := okEvent s e && carefulB P k s e

theorem carefulOkB_sound {P k : Key} (s : Chain) (e : Event) (h : carefulOkB P k s e = true) :
    e.Valid Demo.env s ∧ CarefulEvent Demo.env P k s e := by
  simp only [carefulOkB, Bool.and_eq_true] at h
  exact ⟨(okEvent_sound h.1).1, carefulB_sound (okEvent_sound h.1).2 h.2⟩

/-- User 120 stakes, locks, extends and withdraws; in the first history they claim every time there is something, in the second
one once in the middle. -/
def oftenOrSeldom : List (Where × Event) :=
  [(.both, deposit 100 120 500 .oneYear 120), (.both, .tick DAY), (.both, distribute 100), (.one, claim 100 120 130),
    (.both, deposit 100 120 300 .flex 120), (.both, .tick DAY), (.both, distribute 100), (.one, claim 100 120 130),
    (.both, claim 100 121 131), (.both, .tick DAY), (.both, distribute 100), (.two, claim 100 120 130), (.both, .tick (40 * DAY)),
    (.both, distribute 100), (.both, slash 100 120 100 100 none), (.one, claim 100 120 130), (.both, fill 100 10000 (day0 + 1000 * DAY)),
    (.both, .tick (400 * DAY)), (.both, distribute 100), (.one, claim 100 120 130),
    (.both, extend 100 120 .oneYear .sixMonths (day0 + 105) 500 10 120), (.both, .tick DAY), (.both, distribute 100),
    (.both, claim 100 121 131), (.both, withdraw 100 120 100 120), (.one, claim 100 120 130)]

/-- The hypotheses of `C95_others` and `C95_paid` are met; in the first history 6818 tokens are paid, in the second
one 2538, and 4281 more are owed. -/
example : ∃ s1 s2, Reachable Demo.env ((run s0 joining).getD s0) ∧
    hasMining ((run s0 joining).getD s0).world (mine 120 100) (fun m => decide (m.accountType = 2 ∧ m.rewardPool = 100 ∧ m.index = 0)) = true ∧
    RunsWith Demo.env (CarefulEvent Demo.env 100 (mine 120 100)) ((run s0 joining).getD s0) (firstList oftenOrSeldom) s1 ∧
    RunsWith Demo.env (CarefulEvent Demo.env 100 (mine 120 100)) ((run s0 joining).getD s0) (secondList oftenOrSeldom) s2 ∧
    UpToClaims Demo.env (mine 120 100) ((run s0 joining).getD s0) ((run s0 joining).getD s0) (firstList oftenOrSeldom)
      (secondList oftenOrSeldom) ∧
    hasPool s1.world 100 (fun p => decide (p.cumulative.length < Demo.env.caps.index)) = true ∧
    totalIn Demo.env (claimedBy Demo.env (mine 120 100)) ((run s0 joining).getD s0) (firstList oftenOrSeldom) = 6818 ∧
    totalIn Demo.env (claimedBy Demo.env (mine 120 100)) ((run s0 joining).getD s0) (secondList oftenOrSeldom) = 2538 ∧
    hasMining s2.world (mine 120 100) (fun m => decide (m.unclaimed = 4281)) = true :=
  ⟨_, _, after_reachable (by decide +kernel), by decide +kernel, allPass_sound carefulOkB_sound (by decide +kernel),
    allPass_sound carefulOkB_sound (by decide +kernel), upToClaimsB_sound (by decide +kernel), by decide +kernel,
    by decide +kernel, by decide +kernel, by decide +kernel⟩

/-- User 120 has 100 tokens for any time and 500 for three months, which have passed, and is penalized by 100; in the second
history they claim just before. -/
def claimedBefore : List (Where × Event) :=
  [(.both, deposit 100 120 100 .flex 120), (.both, deposit 100 120 500 .threeMonths 120), (.both, .tick (100 * DAY)),
    (.two, claim 100 120 130), (.both, decrease 100 120 100)]

/-- C95 does not hold when the mining is penalized: a penalty takes from the stake with the latest end first, and if the mining was
not brought up to date, this can be stake that has ended already.  Here the penalty costs nothing in the first history, in which
the staker earns with 600 from then on, and the full 100 in the second, because they claimed before it. -/
theorem C95_penalized_false : ∃ s s1 s2 m1 m2, Reachable Demo.env s ∧
    RunsWith Demo.env (CleanEvent Demo.env) s (firstList claimedBefore) s1 ∧ RunsWith Demo.env (CleanEvent Demo.env) s (secondList claimedBefore) s2 ∧
    UpToClaims Demo.env (mine 120 100) s s (firstList claimedBefore) (secondList claimedBefore) ∧
    MiningAt Demo.env s1.world (mine 120 100) m1 ∧ MiningAt Demo.env s2.world (mine 120 100) m2 ∧
    earningOn m1 (midnight s1.now) = 600 ∧ earningOn m2 (midnight s1.now) = 500 := by
  have h1 : hasMining (endOf ((run s0 joining).getD s0) (firstList claimedBefore)).world (mine 120 100)
      (fun m => decide (earningOn m (midnight (endOf ((run s0 joining).getD s0) (firstList claimedBefore)).now) = 600)) = true := by
    decide +kernel
  have h2 : hasMining (endOf ((run s0 joining).getD s0) (secondList claimedBefore)).world (mine 120 100)
      (fun m => decide (earningOn m (midnight (endOf ((run s0 joining).getD s0) (firstList claimedBefore)).now) = 500)) = true := by
    decide +kernel
  obtain ⟨m1, a1, b1⟩ := hasMining_sound h1
  obtain ⟨m2, a2, b2⟩ := hasMining_sound h2
  exact ⟨_, _, _, m1, m2, after_reachable (es := joining) (by decide +kernel),
    allPass_sound (c := okEvent) (fun _ _ h => okEvent_sound h) (by decide +kernel),
    allPass_sound (c := okEvent) (fun _ _ h => okEvent_sound h) (by decide +kernel), upToClaimsB_sound (by decide +kernel), a1, a2,
    of_decide_eq_true b1, of_decide_eq_true b2⟩

end Examples

end Verif
