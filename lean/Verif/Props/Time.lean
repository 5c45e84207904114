import Verif.Lemmas.Time
import Verif.Lemmas.DemoExec
/-!
C82: within a day the time does not matter, except that exactly midnight counts as part of the day before.
-/

namespace Verif

open Spec

section
variable {env : Env}

/-- C82, one instruction: at two moments of the same day, neither exactly midnight, it succeeds at the one if and only if it
succeeds at the other, with the same effect on every account and the same return data. -/
theorem C82_instruction {s : Chain} (h : Reachable env s) {t t' : Nat} (hd : SameDay t t') {accs : List AccountInfo}
    (hs : RealSigners accs) {i : Ix} {w' : World} {ret : Option Nat} :
    exec env t s.world accs i = .ok (w', ret) ↔ exec env t' s.world accs i = .ok (w', ret) :=
  exec_day_iff hd (reachable_wf h) hs

/-- C82, histories: if the same things happen in the same order and on the same days, but at other times of the day, then
this is a possible history too, and in the end every account is the same. -/
theorem C82_history {s r : Chain} (h : Reachable env s) {t' : Nat} {es es' : List Event} (hd : SameDays s.now t' es es')
    (hr : RunsWith env (CleanEvent env) s es r) :
    ∃ t'', RunsWith env (CleanEvent env) { now := t', world := s.world } es' { now := t'', world := r.world } :=
  runs_day hd (reachable_wf h) hr

end

/-! ## Midnight -/

open Demo

/-- Exactly at the second midnight, after the distribution of that moment. -/
def midnightStory : List Event :=
  [initPool 100, initMining 100 120, initMining 100 121, deposit 100 121 1000 .flex 121,
   deposit 100 120 500 .oneYear 121, fill 100 10000 (day0 + 10 * DAY), distribute 100, .tick (DAY - 100), distribute 100]

/-- The state after `midnightStory`. -/
def atMidnight : Chain := (run s0 midnightStory).getD s0

/-- C82, why midnight is excepted: a claim made exactly at midnight does not pay what was distributed at that moment; a second
later it does. -/
theorem C82_midnight : ∃ (env : Env) (s : Chain) (accs : List AccountInfo) (w w' : World) (a a' : Nat),
    Reachable env s ∧ s.now % 86400 = 0 ∧ RealSigners accs ∧
    exec env s.now s.world accs .claim = .ok (w, some a) ∧
    exec env (s.now + 1) s.world accs .claim = .ok (w', some a') ∧ a < a' := by
  have key : ∀ {s : Chain} {accs : List AccountInfo} {n : Nat}, returned s (.ix accs .claim) = some n →
      ∃ w, exec Demo.env s.now s.world accs .claim = .ok (w, some n) := by
    intro s accs n h
    cases hx : exec Demo.env s.now s.world accs .claim with
    | ok r => simp only [returned, hx] at h; exact ⟨r.1, by rw [← h]⟩
    | error e => simp only [returned, hx] at h; cases h
  have h1 : returned atMidnight (claim 100 120 130) = some 740 := by decide +kernel
  have h2 : returned { atMidnight with now := atMidnight.now + 1 } (claim 100 120 130) = some 1398 := by decide +kernel
  obtain ⟨w, k1⟩ := key h1
  obtain ⟨w', k2⟩ := key h2
  exact ⟨Demo.env, atMidnight, _, w, w', _, _, after_reachable (by decide +kernel), by decide +kernel,
    by unfold RealSigners; decide, k1, k2, by decide⟩

/-- Half an hour and an hour and a half after a midnight. -/
theorem afterStory_day : SameDay afterStory.now (afterStory.now + 3600) :=
  ⟨by decide +kernel, by decide +kernel, by decide +kernel⟩

/-- A claim that pays something, to which `C82_instruction` applies. -/
example : Reachable Demo.env afterStory ∧ SameDay afterStory.now (afterStory.now + 3600) ∧
    RealSigners [R 100, R 101, W (vaultOf 100 101), W (mine 120 100), S 120, S 110, W 130, R 2] ∧
    returned afterStory (claim 100 120 130) = some 1481 := by
  refine ⟨afterStory_reachable, afterStory_day, ?_, by decide +kernel⟩
  unfold RealSigners; decide

/-- A claim, and a distribution on the next day; and the same an hour later each, waiting in several steps. -/
example : Reachable Demo.env afterStory ∧
    SameDays afterStory.now afterStory.now [claim 100 120 130, .tick DAY, distribute 100]
      [.tick 3600, claim 100 120 130, .tick 5, .tick DAY, distribute 100] ∧
    ∃ r, RunsWith Demo.env (CleanEvent Demo.env) afterStory [claim 100 120 130, .tick DAY, distribute 100] r := by
  refine ⟨afterStory_reachable, .wait' (.ix afterStory_day (.wait' (.wait' (.wait (.ix ⟨?_, ?_, ?_⟩ (.nil _ _)))))),
    some_run (by decide +kernel)⟩ <;> decide +kernel

end Verif
