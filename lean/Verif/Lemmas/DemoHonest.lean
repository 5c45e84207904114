import Verif.Lemmas.DemoLedger
import Verif.Spec.Honest
/-!
Checking by evaluation that a concrete history is honest and prompt.
-/

namespace Verif.Demo

open Spec

/-- Executable, stronger version of `Prompt`. -/
def promptB (P V : Key) (s : Chain) (e : Event) : Bool :=
  orderlyB P V s e && (match e with
    | .ix _ i => !addsStake i || (match (s.world P).content with
      | .pool p => settledB p.cumulative s.now
      | _ => true)
    | _ => true)

theorem promptB_sound {P V : Key} {s : Chain} {e : Event} (h : promptB P V s e = true) :
    e.Valid env s ∧ Prompt env P V s e := by
  simp only [promptB, Bool.and_eq_true] at h
  obtain ⟨h0, h⟩ := h
  obtain ⟨h1, h2⟩ := orderlyB_sound h0
  refine ⟨h1, ?_⟩
  cases e with
  | ix accs i =>
    intro _
    refine ⟨fun _ hi p hp => ?_, h2.2.delegate, h2.2.oldDelegate, h2.2.source⟩
    simp only [hi, Bool.not_true, Bool.false_or, hp.2] at h
    exact settledB_sound h
  | tick d => trivial
  | gc k => exact h2.2
  | ext w => exact h2

def promptRun (P V : Key) : Chain → List Event → Option Chain
  | s, [] => some s
  | s, e :: es => if promptB P V s e = true then promptRun P V (s.apply env e) es else none

theorem promptRun_sound {P V : Key} {s s' : Chain} {es : List Event} (h : promptRun P V s es = some s') :
    RunsWith env (Prompt env P V) s es s' := by
  induction es generalizing s with
  | nil => simp only [promptRun, Option.some.injEq] at h; subst h; exact .nil _
  | cons e es ih =>
    simp only [promptRun] at h
    split at h
    · rename_i he
      obtain ⟨h1, h2⟩ := promptB_sound he
      exact .cons h1 h2 (ih h)
    · cases h

theorem runs_end {C C' : Chain → Event → Prop} {s s1 s2 : Chain} {es : List Event} (h1 : RunsWith env C s es s1)
    (h2 : RunsWith env C' s es s2) : s1 = s2 := by
  induction h1 with
  | nil => cases h2; rfl
  | cons _ _ _ ih => cases h2 with | cons _ _ h => exact ih h

theorem ledger_end {C : Chain → Event → Prop} {P : Key} {s s1 s2 : Chain} {L L' : Ledger} {es : List Event}
    (h1 : LedgerRuns env P s L es s1 L') (h2 : RunsWith env C s es s2) : s1 = s2 := by
  induction h1 with
  | nil => cases h2; rfl
  | cons _ _ _ ih => cases h2 with | cons _ _ h => exact ih h

/-- A history that passes both checks is honest. -/
theorem honest_eq {P V : Key} {es : List (Event × Nat)} (h : (ledgerRun P s0 [] es).isSome = true)
    (h' : (promptRun P V s0 (es.map (·.1))).isSome = true) :
    HonestRun env P V s0 (es.map (·.1)) ((ledgerRun P s0 [] es).getD (s0, [])).1 ((ledgerRun P s0 [] es).getD (s0, [])).2 := by
  have hl := ledgerRun_eq h
  refine ⟨hl, ?_⟩
  cases hr : promptRun P V s0 (es.map (·.1)) with
  | none => rw [hr] at h'; cases h'
  | some x =>
    have h2 := promptRun_sound hr
    rw [ledger_end hl h2]
    exact h2

theorem ledgerStory_honest : HonestRun env 100 (vaultOf 100 101) s0 (ledgerStory.map (·.1)) afterLedger.1 afterLedger.2 :=
  honest_eq (by decide +kernel) (by decide +kernel)

/-- With a delegated stake at the end. -/
def honestStory : List (Event × Nat) := ledgerStory ++ [(deposit 100 120 80 .flex 121, 0)]

def afterHonest : Chain × Ledger := (ledgerRun 100 s0 [] honestStory).getD (s0, [])

theorem honestStory_honest : HonestRun env 100 (vaultOf 100 101) s0 (honestStory.map (·.1)) afterHonest.1 afterHonest.2 :=
  honest_eq (by decide +kernel) (by decide +kernel)

theorem honestStory_stakes : afterHonest.2 =
    [⟨mine 120 100, mine 121 100, 80, 1, day0 + 106 * DAY⟩, ⟨mine 121 100, mine 121 100, 150, 2, day0 + 90 * DAY⟩,
     ⟨mine 121 100, mine 121 100, 250, 4, day0 + 181 * DAY⟩, ⟨mine 120 100, mine 120 100, 500, 6, day0 + 365 * DAY⟩] := by
  decide +kernel

end Verif.Demo
