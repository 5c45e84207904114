import Verif.Lemmas.Earnings
import Verif.Lemmas.DemoIncentive
/-!
What one's own stake has earned is paid or stays owed, whether it has been credited or not (C127).
-/

namespace Verif

open Spec

section
variable {env : Env}

/-- C127, one instruction.  After any instruction of anybody, every mining is still there, and is owed for its own stake at least
what it was owed before, less what the instruction paid from it and less one base unit for every rounding; only a mining that
is owed no more than these roundings may be closed.  It does not matter whether the rewards had been credited to the mining
before, and so no deposit, withdrawal, slashing, extension, change of delegate, … takes them away, neither as the acting
mining nor as a delegate.  Excepted are instructions on the mining that are a penalty on its rewards (`C56_penalty_false`),
name another pool than its own (`C127_other_pool_false`), or are executed in the very second of midnight for which a
distribution is recorded (`C06_own_stake_false`). -/
theorem C127_instruction {now : Nat} {w w' : World} {accs : List AccountInfo} {i : Ix} {ret : Option Nat}
    (hw : Wf env now w) (hs : RealSigners accs) (hclean : NotPoolAsMining env w accs i)
    (h : exec env now w accs i = .ok (w', ret)) {P k : Key} {p p' : Pool} {m : Mining} (hm : MiningAt env w k m)
    (ht : m.accountType = 2) (hp : PoolAt env w P p) (hp' : PoolAt env w' P p') (hreg : Regular env P k now w accs i) :
    (∃ m', MiningAt env w' k m' ∧ SameIdentity m m' ∧
      ownOwed m p.cumulative ≤ 10 ^ 16 * (claimedOut accs k i ret + roundings accs i k now m) + ownOwed m' p'.cumulative) ∨
    (i = .closeMining ∧ miningArg accs i = some k ∧ ownOwed m p.cumulative ≤ 10 ^ 16 * roundings accs i k now m) := by
  have hstep := step_of_exec hw hs hclean h
  obtain ⟨q, h1, h2, -⟩ := hstep.pool hp
  obtain rfl := PoolAt.unique hp' h1
  have hcum : p.cumulative <+: p'.cumulative := by
    rcases (h2.history (poolAt_good hw hp).ok).1 with e | ⟨-, e⟩
    · rw [e]; exact List.prefix_refl _
    · rw [e]; exact List.prefix_append _ _
  rcases hstep.ownKept hm ht hp hcum hreg with ⟨m', g1, g2, -, g4⟩ | g
  · exact Or.inl ⟨m', g1, g2.identity, g4⟩
  · exact Or.inr g

/-- C127, histories.  At the end of any history, whoever does what in it, what a mining was owed for its own stake at its
beginning, credited or not, has been paid by claims from this mining or is still owed to it, but for one base unit for every
rounding; with the exceptions of `C127_instruction`. -/
theorem C127_history {P k : Key} {m : Mining} {p : Pool} {s s' : Chain} {es : List Event} (hw : Wf env s.now s.world)
    (hr : RunsWith env (RegularEvent env P k) s es s') (hm : MiningAt env s.world k m) (ht : m.accountType = 2)
    (hl : 0 < (s.world k).lamports) (hp : PoolAt env s.world P p) (hlp : 0 < (s.world P).lamports) :
    ownOwed m p.cumulative ≤ 10 ^ 16 * (totalIn env (claimedBy env k) s es + totalIn env (roundingsBy env k) s es) ∨
    ∃ m' p', MiningAt env s'.world k m' ∧ SameIdentity m m' ∧ PoolAt env s'.world P p' ∧
      ownOwed m p.cumulative ≤ 10 ^ 16 * (totalIn env (claimedBy env k) s es + totalIn env (roundingsBy env k) s es) +
        ownOwed m' p'.cumulative := by
  rcases runs_own hr hw hm ht hl hp hlp with h | ⟨m', p', h1, h2, h3, h4⟩
  · exact Or.inl h
  · exact Or.inr ⟨m', p', h1, h2.identity, h3, h4⟩

/-- C127, nobody else's doing.  As long as no instruction names the mining, whatever happens to the pool and to all other
minings, the mining is not closed and what it is owed for its own stake does not go down at all. -/
theorem C127_unnamed {P k : Key} {m : Mining} {p : Pool} {s s' : Chain} {es : List Event} (hw : Wf env s.now s.world)
    (hr : RunsWith env (fun s e => CleanEvent env s e ∧ ∀ accs i, e = .ix accs i → names accs i k = false) s es s')
    (hm : MiningAt env s.world k m) (ht : m.accountType = 2)
    (hl : 0 < (s.world k).lamports) (hp : PoolAt env s.world P p) (hlp : 0 < (s.world P).lamports) :
    ∃ m' p', MiningAt env s'.world k m' ∧ SameIdentity m m' ∧ PoolAt env s'.world P p' ∧
      ownOwed m p.cumulative ≤ ownOwed m' p'.cumulative := by
  suffices hsuff : ∃ m' p', MiningAt env s'.world k m' ∧ SameMining m m' ∧ PoolAt env s'.world P p' ∧
      ownOwed m p.cumulative ≤ ownOwed m' p'.cumulative by
    obtain ⟨m', p', h1, h2, h3⟩ := hsuff
    exact ⟨m', p', h1, h2.identity, h3⟩
  induction hr generalizing m p with
  | nil s => exact ⟨m, p, hm, SameMining.refl m, hp, Nat.le_refl _⟩
  | @cons s s' e es hv hc _ ih =>
    have hreg : RegularEvent env P k s e := ⟨hc.1, fun accs i he hn => by
      rw [hc.2 accs i he] at hn; cases hn⟩
    have hz : claimedBy env k s e = 0 ∧ roundingsBy env k s e = 0 := by
      cases e with
      | ix accs i =>
        have hn := hc.2 accs i rfl
        refine ⟨?_, ?_⟩
        · simp only [claimedBy]
          split
          · have hne : miningArg accs i ≠ some k := by
              intro he; simp [names, he] at hn
            unfold claimedOut
            split
            · rw [if_neg hne]
            · rfl
          · rfl
        · rw [roundingsBy, hm.2]; simp [roundings, hn]
      | _ => exact ⟨rfl, rfl⟩
    obtain ⟨p1, k1, k2, h⟩ := apply_own hw hv hreg hm ht hl hp hlp
    rw [hz.1, hz.2] at h
    have hback : ∃ m1, MiningAt env (s.apply env e).world k m1 ∧ SameMining m m1 ∧ 0 < ((s.apply env e).world k).lamports ∧
        ownOwed m p.cumulative ≤ ownOwed m1 p1.cumulative := by
      rcases h with ⟨m1, h1, h2, h3, h4⟩ | h4
      · exact ⟨m1, h1, h2, h3, by omega⟩
      · rcases apply_mining hw hv hc.1 hm ht hl with ⟨m1, h1, h2, h3⟩ | ⟨accs, w', ret, rfl, -, h3⟩
        · exact ⟨m1, h1, h2, h3, by omega⟩
        · have := hc.2 _ _ rfl
          simp [names, h3] at this
    obtain ⟨m1, h1, h2, h3, h4⟩ := hback
    obtain ⟨m2, p2, g1, g2, g3, g4⟩ := ih (wf_apply hw hv hc.1) h1 (h2.accountType.trans ht) h3 k1 k2
    exact ⟨m2, p2, g1, h2.trans g2, g3, Nat.le_trans h4 g4⟩

end

/-! ### Concrete cases -/

section Examples
open Demo

/-- Checking by evaluation that an event is regular. -/
def regularB (P k : Key) (s : Chain) : Event → Bool
  | .ix accs i => !names accs i k || ((match i with | .decreaseRewards .. => false | _ => true) &&
      decide (poolArg accs i = some P) && (match (s.world P).content with | .pool p => settledB p.cumulative s.now | _ => false))
  | _ => true

theorem regularB_sound {P k : Key} {s : Chain} {accs : List AccountInfo} {i : Ix} (h : regularB P k s (.ix accs i) = true) :
    Regular Demo.env P k s.now s.world accs i := by
  intro hn
  simp only [regularB, hn, Bool.not_true, Bool.false_or, Bool.and_eq_true, decide_eq_true_eq] at h
  obtain ⟨⟨h1, h2⟩, h3⟩ := h
  refine ⟨?_, h2, ?_⟩
  · rintro o n rfl; simp at h1
  · intro p hp
    rw [hp.2] at h3
    exact settledB_sound h3

theorem regularRun {P k : Key} {s : Chain} {es : List Event}
    (h : allPass (fun s e => okEvent s e && regularB P k s e) s es = true) :
    RunsWith Demo.env (RegularEvent Demo.env P k) s es (endOf s es) :=
  allPass_sound (fun s e h => by
    simp only [Bool.and_eq_true] at h
    exact ⟨(okEvent_sound h.1).1, (okEvent_sound h.1).2, fun _ _ he => regularB_sound (he ▸ h.2)⟩) h

/-- Rewards that are not credited yet. -/
def uncreditedB (w : World) (P k : Key) : Bool :=
  hasMining w k fun m => decide (m.accountType = 2 ∧ 0 < (w k).lamports ∧ 0 < (w P).lamports) &&
    hasPool w P fun p => decide (10 ^ 16 * m.unclaimed + 10 ^ 16 < ownOwed m p.cumulative)

theorem uncreditedB_sound {w : World} {P k : Key} (h : uncreditedB w P k = true) :
    ∃ m p, MiningAt Demo.env w k m ∧ m.accountType = 2 ∧ 0 < (w k).lamports ∧ PoolAt Demo.env w P p ∧ 0 < (w P).lamports ∧
      10 ^ 16 * m.unclaimed + 10 ^ 16 < ownOwed m p.cumulative := by
  obtain ⟨m, hm, h1⟩ := hasMining_sound h
  simp only [Bool.and_eq_true, decide_eq_true_eq] at h1
  obtain ⟨⟨h2, h3, h4⟩, h5⟩ := h1
  obtain ⟨p, hp, h6⟩ := hasPool_sound h5
  exact ⟨m, p, hm, h2, h3, hp, h4, of_decide_eq_true h6⟩

/-- `C127_instruction` is about this deposit, by which the second staker of the story, who has rewards that are not credited
yet, gets more delegated stake. -/
example : ∃ m p w', Succeeds afterStory [W 100, W (mine 120 100), S 110, W (mine 121 100)] (.depositMining 70 .flex 120 121) w' ∧
    MiningAt Demo.env afterStory.world (mine 121 100) m ∧ m.accountType = 2 ∧ PoolAt Demo.env afterStory.world 100 p ∧
    10 ^ 16 * m.unclaimed + 10 ^ 16 < ownOwed m p.cumulative ∧
    Regular Demo.env 100 (mine 121 100) afterStory.now afterStory.world
      [W 100, W (mine 120 100), S 110, W (mine 121 100)] (.depositMining 70 .flex 120 121) := by
  obtain ⟨m, p, hm, h2, -, hp, -, h5⟩ := uncreditedB_sound
    (show uncreditedB afterStory.world 100 (mine 121 100) = true by decide +kernel)
  obtain ⟨w', hx⟩ := succeeds afterStory_reachable (show okEvent afterStory (deposit 100 120 70 .flex 121) = true by decide +kernel)
  exact ⟨m, p, w', hx, hm, h2, hp, h5, regularB_sound (by decide +kernel)⟩

/-- `C127_history` is about this history, in which the staker withdraws, is slashed, and claims. -/
example : ∃ m p, Wf Demo.env afterStory.now afterStory.world ∧ MiningAt Demo.env afterStory.world (mine 121 100) m ∧
    m.accountType = 2 ∧ 0 < (afterStory.world (mine 121 100)).lamports ∧ PoolAt Demo.env afterStory.world 100 p ∧
    0 < (afterStory.world 100).lamports ∧ 10 ^ 16 * m.unclaimed + 10 ^ 16 < ownOwed m p.cumulative ∧
    RunsWith Demo.env (RegularEvent Demo.env 100 (mine 121 100)) afterStory
      [withdraw 100 121 300 121, slash 100 121 10 10 none, .tick DAY, distribute 100, .tick 5, claim 100 121 131]
      (endOf afterStory [withdraw 100 121 300 121, slash 100 121 10 10 none, .tick DAY, distribute 100, .tick 5,
        claim 100 121 131]) := by
  obtain ⟨m, p, hm, h2, h3, hp, h4, h5⟩ := uncreditedB_sound
    (show uncreditedB afterStory.world 100 (mine 121 100) = true by decide +kernel)
  exact ⟨m, p, reachable_wf afterStory_reachable, hm, h2, h3, hp, h4, h5, regularRun (by decide +kernel)⟩

/-- The story, after which the same authorities create a second pool. -/
def secondPool : Chain := (run s0 (story ++ [initPool 200])).getD s0

theorem secondPool_reachable : Reachable Demo.env secondPool := after_reachable (by decide +kernel)

/-- C127 needs that the instruction names the pool of the mining: CloseMining does not check this, so closing the first staker's
mining with the second pool removes it although more than the roundings is owed to it in its own pool. -/
theorem C127_other_pool_false : ∃ s accs w' m p, Reachable Demo.env s ∧ Succeeds s accs .closeMining w' ∧
    miningArg accs .closeMining = some (mine 120 100) ∧ MiningAt Demo.env s.world (mine 120 100) m ∧ m.rewardPool = 100 ∧
    PoolAt Demo.env s.world 100 p ∧ Settled p.cumulative s.now ∧
    10 ^ 16 * roundings accs .closeMining (mine 120 100) s.now m < ownOwed m p.cumulative := by
  obtain ⟨m, hm, h1⟩ := hasMining_sound (f := fun m => decide (m.rewardPool = 100) &&
      hasPool secondPool.world 100 fun p => settledB p.cumulative secondPool.now && decide (10 ^ 16 * roundings
        [W (mine 120 100), S 120, W 102, S 110, R 200] .closeMining (mine 120 100) secondPool.now m < ownOwed m p.cumulative))
    (show hasMining secondPool.world (mine 120 100) _ = true by decide +kernel)
  simp only [Bool.and_eq_true, decide_eq_true_eq] at h1
  obtain ⟨p, hp, h2⟩ := hasPool_sound h1.2
  simp only [Bool.and_eq_true, decide_eq_true_eq] at h2
  obtain ⟨w', hx⟩ := succeeds secondPool_reachable
    (show okEvent secondPool (.ix [W (mine 120 100), S 120, W 102, S 110, R 200] .closeMining) = true by decide +kernel)
  exact ⟨secondPool, _, w', m, p, secondPool_reachable, hx, rfl, hm, h1.1, hp, settledB_sound h2.1, h2.2⟩

/-- `C127_unnamed` is about this history. -/
example : ∃ s', RunsWith Demo.env (fun s e => CleanEvent Demo.env s e ∧ ∀ accs i, e = .ix accs i →
      names accs i (mine 121 100) = false) afterStory
    [deposit 100 120 70 .flex 120, .tick DAY, distribute 100, claim 100 120 130] s' :=
  ⟨_, allPass_sound (c := fun s e => okEvent s e && (match e with | .ix accs i => !names accs i (mine 121 100) | _ => true))
    (fun s e h => by
      simp only [Bool.and_eq_true] at h
      refine ⟨(okEvent_sound h.1).1, (okEvent_sound h.1).2, ?_⟩
      rintro accs i rfl
      simpa using h.2) (by decide +kernel)⟩

end Examples

end Verif
