import Verif.Lemmas.AsideRun
import Verif.Props.Claims
/-!
C108: penalties concern nobody but the penalized.
-/

namespace Verif

open Spec

section
variable {env : Env}

theorem beside_refl {w : World} {k : Key} {m : Mining} (hm : MiningAt env w k m) (hl : 0 < (w k).lamports) :
    Beside env k w w :=
  ⟨fun _ _ => Or.inl rfl, ⟨m, m, hm, hm, .refl _⟩, rfl, rfl, hl⟩

/-- C108.  Take two histories from the same state in which the same happens, except that a staker is penalized at other times or
with other amounts, or not at all, and claims at other times or not at all.  At the end all accounts but token accounts and the
staker's own mining are the same in both: every pool with its total stake and its distributions, and the stake and the rewards of
everybody else; everybody else has been paid the same; and the staker has the same stake delegated to them. -/
theorem C108_others {k : Key} {s s1 s2 : Chain} {es es' : List Event} {m : Mining} (hre : Reachable env s)
    (hm : Proper env s.world k m) (hl : 0 < (s.world k).lamports) (h1 : RunsWith env (Unclosed env k) s es s1)
    (h2 : RunsWith env (Unclosed env k) s es' s2) (hu : UpToAffairs env k s s es es') :
    s1.now = s2.now ∧ (∀ j, j ≠ k → SameOrTokens env (s1.world j) (s2.world j)) ∧
      (∀ P p, PoolAt env s1.world P p ↔ PoolAt env s2.world P p) ∧
      (∀ j, j ≠ k → ∀ x, MiningAt env s1.world j x ↔ MiningAt env s2.world j x) ∧
      (∀ j, j ≠ k → totalIn env (claimedBy env j) s es = totalIn env (claimedBy env j) s es') ∧
      ∃ m1 m2, MiningAt env s1.world k m1 ∧ MiningAt env s2.world k m2 ∧ SameHolder m1 m2 ∧
        (s1.world k).lamports = (s2.world k).lamports ∧ (s1.world k).len = (s2.world k).len := by
  obtain ⟨k1, k2, k3⟩ := beside_runs (isPda_of_proper hre hm) hu h1 h2 (reachable_wf hre) (reachable_wf hre) rfl
    (beside_refl hm.1 hl)
  obtain ⟨m1, m2, a1, a2, a3⟩ := k2.mining
  exact ⟨k1, k2.others, fun P p => ⟨fun h => beside_pool k2 h, fun h => beside_pool k2.symm h⟩,
    fun j hj x => ⟨fun h => (miningAt_congr (k2.eq_program hj h.1)).mp h,
      fun h => (miningAt_congr (k2.symm.eq_program hj h.1)).mp h⟩,
    k3, m1, m2, a1, a2, a3.holder, k2.lamports, k2.len⟩

end

/-! ### Concrete cases -/

section Examples
open Demo

def affairOfB (k : Key) : Event → Bool
  | .ix accs .claim => decide (miningArg accs .claim = some k)
  | .ix accs (.decreaseRewards o n) => decide (miningArg accs (.decreaseRewards o n) = some k)
  | _ => false

theorem affairOfB_sound {k : Key} {e : Event} (h : affairOfB k e = true) : AffairOf k e := by
  unfold affairOfB at h
  split at h
  · exact of_decide_eq_true (p := miningArg _ _ = _) h
  · exact of_decide_eq_true (p := miningArg _ _ = _) h
  · cases h

def upToAffairsB (k : Key) : Chain → Chain → List (Where × Event) → Bool
  | _, _, [] => true
  | s, t, (.both, e) :: es => okEvent s e && okEvent t e && upToAffairsB k (s.apply Demo.env e) (t.apply Demo.env e) es
  | s, t, (.one, e) :: es => affairOfB k e && upToAffairsB k (s.apply Demo.env e) t es
  | s, t, (.two, e) :: es => affairOfB k e && upToAffairsB k s (t.apply Demo.env e) es

theorem upToAffairsB_sound {k : Key} {es : List (Where × Event)} : ∀ {s t : Chain}, upToAffairsB k s t es = true →
    UpToAffairs Demo.env k s t (firstList es) (secondList es) := by
  induction es with
  | nil => exact fun _ => .done
  | cons a es ih =>
    intro s t h
    obtain ⟨x, e⟩ := a
    cases x <;> simp only [upToAffairsB, Bool.and_eq_true] at h
    · refine .both (Or.inl rfl) ?_ (ih h.2)
      cases e with
      | ix accs i =>
        obtain ⟨r, h1⟩ := exec_of_ok h.1.1
        obtain ⟨r', h2⟩ := exec_of_ok h.1.2
        simp [goesThrough, succeeded, h1, h2]
      | _ => rfl
    · exact .first (affairOfB_sound h.1) (ih h.2)
    · exact .second (affairOfB_sound h.1) (ih h.2)

def unclosedB (k : Key) (s : Chain) (e : Event) : Bool :=
  okEvent s e && match e with
    | .ix accs i => !decide (miningArg accs i = some k) || !decide (i = .closeMining)
    | _ => true

theorem unclosedB_sound {k : Key} (s : Chain) (e : Event) (h : unclosedB k s e = true) :
    e.Valid Demo.env s ∧ Unclosed Demo.env k s e := by
  simp only [unclosedB, Bool.and_eq_true] at h
  obtain ⟨h1, h2⟩ := h
  refine ⟨(okEvent_sound h1).1, (okEvent_sound h1).2, ?_⟩
  cases e with
  | ix accs i =>
    intro _ hk hi
    subst hi
    simp [hk] at h2
  | _ => trivial

/-- User 120 stakes, locks and delegates to user 121; in the first history they are penalized twice and claim. -/
def penaltiesOrNot : List (Where × Event) :=
  [(.both, claim 100 121 131), (.both, deposit 100 120 500 .oneYear 121), (.both, .tick DAY), (.both, distribute 100), (.one, decrease 100 120 700),
    (.both, deposit 100 120 300 .flex 120), (.both, .tick DAY), (.both, distribute 100), (.one, claim 100 120 130),
    (.both, claim 100 121 131), (.both, .tick (40 * DAY)), (.both, distribute 100), (.both, decrease 100 120 100),
    (.one, decrease 100 120 900), (.two, claim 100 120 130), (.both, withdraw 100 120 100 120), (.both, .tick DAY),
    (.both, distribute 100), (.both, claim 100 121 131), (.both, claim 100 120 130)]

/-- The hypotheses of `C108_others` are met; the penalized staker is paid less in the first history, the other staker the same in
both. -/
example : ∃ s1 s2, Reachable Demo.env ((run s0 joining).getD s0) ∧
    hasMining ((run s0 joining).getD s0).world (mine 120 100) (fun m => decide (m.accountType = 2)) = true ∧
    0 < (((run s0 joining).getD s0).world (mine 120 100)).lamports ∧
    RunsWith Demo.env (Unclosed Demo.env (mine 120 100)) ((run s0 joining).getD s0) (firstList penaltiesOrNot) s1 ∧
    RunsWith Demo.env (Unclosed Demo.env (mine 120 100)) ((run s0 joining).getD s0) (secondList penaltiesOrNot) s2 ∧
    UpToAffairs Demo.env (mine 120 100) ((run s0 joining).getD s0) ((run s0 joining).getD s0) (firstList penaltiesOrNot)
      (secondList penaltiesOrNot) ∧
    totalIn Demo.env (claimedBy Demo.env (mine 120 100)) ((run s0 joining).getD s0) (firstList penaltiesOrNot) <
      totalIn Demo.env (claimedBy Demo.env (mine 120 100)) ((run s0 joining).getD s0) (secondList penaltiesOrNot) ∧
    0 < totalIn Demo.env (claimedBy Demo.env (mine 121 100)) ((run s0 joining).getD s0) (firstList penaltiesOrNot) :=
  ⟨_, _, after_reachable (by decide +kernel), by decide +kernel, by decide +kernel,
    allPass_sound unclosedB_sound (by decide +kernel), allPass_sound unclosedB_sound (by decide +kernel),
    upToAffairsB_sound (by decide +kernel), by decide +kernel, by decide +kernel⟩

end Examples

end Verif
