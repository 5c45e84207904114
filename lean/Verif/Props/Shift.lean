import Verif.Lemmas.ShiftExec
import Verif.Lemmas.DemoIncentive
/-!
C91: no date is special.
-/

namespace Verif

open Spec

section
variable {env : Env}

/-- C91: an instruction executed any number of days later, with all dates in its arguments and in the accounts later by the same
number of days, has the same outcome: the same error, or the same return value and the same accounts with later dates.  So
there is no date after which the program would behave differently.  This holds in every state, reachable or not, from
2 January 1970 until a year before the end of the 64-bit calendar, as long as no pool is passed as a mining or the other way
round. -/
theorem C91_instruction (n now : Nat) {w : World} {accs : List AccountInfo} {i : Ix} (hmix : NoMixUp w accs i)
    (hcal : InCalendar n now i) :
    exec env (now + 86400 * n) (laterWorld n w) accs (laterIx n i) =
      match exec env now w accs i with
      | .error e => .error e
      | .ok (w', ret) => .ok (laterWorld n w', ret) := by
  rw [exec_later n hmix hcal]
  cases exec env now w accs i <;> rfl

/-- C91 for histories: every history is also possible any number of days later, and leads to the same accounts with later
dates. -/
theorem C91_history (n : Nat) {s s' : Chain} {es : List Event} (h : RunsWith env (Dated n) s es s') :
    Runs env (laterChain n s) (es.map (laterEvent n)) (laterChain n s') := by
  induction h with
  | nil => exact .nil _
  | @cons s s' e es hv hd _ ih =>
    refine .cons ((valid_later n).mpr hv) ?_
    have : (laterChain n s).apply env (laterEvent n e) = laterChain n (s.apply env e) := by
      cases e with
      | ix accs i =>
        simp only [Chain.apply, laterEvent, laterChain, exec_later n hd.1 hd.2]
        cases exec env s.now s.world accs i with
        | error e => rfl
        | ok x => rfl
      | tick d =>
        simp only [Chain.apply, laterEvent, laterChain]
        congr 1
        omega
      | gc k =>
        simp only [Chain.apply, laterEvent, laterChain]
        rw [← laterWorld_set]
        rfl
      | ext w => rfl
    rw [this]
    exact ih

end

section Examples
open Demo

def holdsPool (w : World) : Option Key → Bool
  | some k => match (w k).content with | .pool _ => true | _ => false
  | none => false

def holdsMining (w : World) : Option Key → Bool
  | some k => match (w k).content with | .mining _ => true | _ => false
  | none => false

theorem holdsPool_sound {w : World} {o : Option Key} (h : holdsPool w o = false) :
    ∀ k, o = some k → ∀ p, (w k).content ≠ .pool p := by
  rintro k rfl p hp
  simp [holdsPool, hp] at h

theorem holdsMining_sound {w : World} {o : Option Key} (h : holdsMining w o = false) :
    ∀ k, o = some k → ∀ p, (w k).content ≠ .mining p := by
  rintro k rfl p hp
  simp [holdsMining, hp] at h

def datedB (n : Nat) (s : Chain) (e : Event) : Bool :=
  okEvent s e && match e with
    | .ix accs i => !holdsMining s.world (poolArg accs i) && !holdsPool s.world (miningArg accs i) &&
        !holdsPool s.world (delegateArg accs i) && !holdsPool s.world (oldDelegateArg accs i) &&
        decide (86400 ≤ s.now) && decide (s.now + 86400 * n + 366 * 86400 < 2 ^ 64) &&
        match i with
        | .fillVault _ t => decide (t + 86400 * n < 2 ^ 64)
        | .extendStake _ _ ts _ _ _ _ => decide (ts + 86400 * n + 366 * 86400 < 2 ^ 64)
        | _ => true
    | _ => true

theorem datedB_sound {n : Nat} (s : Chain) (e : Event) (h : datedB n s e = true) : Dated n s e := by
  cases e with
  | ix accs i =>
    simp only [datedB, Bool.and_eq_true, Bool.not_eq_true', decide_eq_true_eq] at h
    obtain ⟨_, ⟨⟨⟨⟨⟨h1, h2⟩, h3⟩, h4⟩, h5⟩, h6⟩, h7⟩ := h
    refine ⟨⟨holdsMining_sound h1, holdsPool_sound h2, holdsPool_sound h3, holdsPool_sound h4⟩, h5, h6, ?_⟩
    cases i <;> first | exact of_decide_eq_true h7 | trivial
  | _ => trivial

theorem datedB_ok (n : Nat) (s : Chain) (e : Event) (h : datedB n s e = true) : okEvent s e = true := by
  simp only [datedB, Bool.and_eq_true] at h
  exact h.1

/-- `C91_history` applies to the example history, ten thousand days later. -/
example : ∃ s', RunsWith Demo.env (Dated 10000) s0 story s' ∧
    Runs Demo.env (laterChain 10000 s0) (story.map (laterEvent 10000)) (laterChain 10000 s') ∧
    hasMining s'.world (mine 120 100) (fun m => decide (m.diffs ≠ [])) = true := by
  have h : RunsWith Demo.env (Dated 10000) s0 story (endOf s0 story) := allPass_sound (c := datedB 10000)
    (fun s e h => ⟨(okEvent_sound (datedB_ok 10000 s e h)).1, datedB_sound s e h⟩) (by decide +kernel)
  exact ⟨_, h, C91_history 10000 h, by decide +kernel⟩

/-- `C91_instruction` applies to a deposit after the pool has been filled. -/
example : ∃ s accs i, NoMixUp s.world accs i ∧ InCalendar 10000 s.now i ∧ Event.ix accs i = deposit 100 120 500 .oneYear 121 ∧
    okEvent s (.ix accs i) = true := by
  have h : allPass (datedB 10000) s0 [initPool 100, initMining 100 120, initMining 100 121, fill 100 1000 (day0 + 30 * DAY),
    deposit 100 120 500 .oneYear 121] = true := by decide +kernel
  simp only [allPass, Bool.and_eq_true] at h
  obtain ⟨_, _, _, _, h, _⟩ := h
  have hd := datedB_sound _ _ h
  exact ⟨_, _, _, hd.1, hd.2, rfl, datedB_ok _ _ _ h⟩

end Examples

end Verif
