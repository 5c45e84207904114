import Verif.Lemmas.DemoExec
import Verif.Lemmas.Solvency
/-!
Checking by evaluation that a concrete history is orderly.
-/

namespace Verif.Demo

open Spec

def roomB (caps : Caps) (now : Nat) (m : Mining) (l : LockupPeriod) : Bool :=
  match terms l with
  | some (_, n) => decide ((∃ x ∈ laterThan m.diffs (midnight now), x.1 = midnight now + 86400 * n) ∨
      (laterThan m.diffs (midnight now)).length < caps.mining)
  | none => true

theorem roomB_sound {caps : Caps} {now : Nat} {m : Mining} {l : LockupPeriod} (h : roomB caps now m l = true) :
    ∀ k n, terms l = some (k, n) → HasRoom caps.mining (laterThan m.diffs (midnight now)) (midnight now + 86400 * n) := by
  intro k n hl
  unfold roomB at h
  rw [hl] at h
  simpa [HasRoom] using h

def expiredB (now ts : Nat) (l : LockupPeriod) : Bool :=
  match terms l with
  | some (_, n) => decide (midnight ts + 86400 * n ≤ now)
  | none => true

def settledB (cum : List (Nat × Nat)) (now : Nat) : Bool := cum.all fun e => decide (e.1 < now)

theorem settledB_sound {cum : List (Nat × Nat)} {now : Nat} (h : settledB cum now = true) : Settled cum now := by
  intro e he
  simpa using List.all_eq_true.mp h e he

def unlockedB (n : Nat) (m : Mining) : Bool := decide (n + total m.diffs ≤ m.share)

theorem unlockedB_sound {n : Nat} {m : Mining} (h : unlockedB n m = true) : Unlocked n m := by
  simpa [unlockedB, Unlocked] using h

def orderlyStakeB (caps : Caps) (now : Nat) (p : Pool) (m : Mining) : Ix → Bool
  | .depositMining _ l _ _ => settledB p.cumulative now && roomB caps now m l
  | .withdrawMining a _ _ => unlockedB a m
  | .extendStake ol nl ts b _ _ _ => settledB p.cumulative now && unlockedB b m && roomB caps now m nl &&
      (decide (ol = .flex) || expiredB now ts ol)
  | .slash _ n mu ex => unlockedB (if ex = none then mu else n) m
  | .changeDelegate _ _ => settledB p.cumulative now
  | _ => true

theorem orderlyStakeB_sound {caps : Caps} {now : Nat} {p : Pool} {m : Mining} {i : Ix}
    (h : orderlyStakeB caps now p m i = true) : OrderlyStake caps now p m i := by
  cases i <;> try trivial
  · simp only [orderlyStakeB, Bool.and_eq_true] at h
    exact ⟨settledB_sound h.1, roomB_sound h.2⟩
  · exact unlockedB_sound h
  · simp only [orderlyStakeB, Bool.and_eq_true, Bool.or_eq_true, decide_eq_true_eq] at h
    obtain ⟨⟨⟨h1, h2⟩, h3⟩, h4⟩ := h
    refine ⟨settledB_sound h1, unlockedB_sound h2, roomB_sound h3, h4.imp id fun h k n hl => ?_⟩
    unfold expiredB at h
    rw [hl] at h
    simpa using h
  · exact settledB_sound h
  · exact unlockedB_sound h

def memberB (w : World) (P k : Key) (f : Mining → Bool) : Bool := hasMining w k fun m => decide (m.rewardPool = P) && f m

theorem memberB_sound {w : World} {P k : Key} {f : Mining → Bool} (h : memberB w P k f = true) :
    ∃ m, Member env w P k m ∧ f m = true := by
  obtain ⟨m, h1, h2⟩ := hasMining_sound h
  simp only [Bool.and_eq_true, decide_eq_true_eq] at h2
  exact ⟨m, ⟨h1, h2.1⟩, h2.2⟩

theorem memberB_of {w : World} {P k : Key} {m : Mining} (h : Member env w P k m) : memberB w P k (fun _ => true) = true := by
  simp [memberB, hasMining, h.1.1, h.1.2, h.2]

/-- Executable version of `OrderlyIx`. -/
def orderlyIxB (P V : Key) (now : Nat) (w : World) (accs : List AccountInfo) (i : Ix) : Bool :=
  (decide (poolArg accs i ≠ some P) || (
    (match miningArg accs i with
      | some M => (match (w M).content, (w P).content with
        | .mining m, .pool p => orderlyStakeB env.caps now p m i
        | _, _ => true)
      | none => true) &&
    (match miningArg accs i, delegateArg accs i with
      | some M, some D => decide (D = M) || (match (w P).content with
        | .pool p => memberB w P D fun x => !raisesDelegate i || decide (x.index = lastIndex 0 p.cumulative)
        | _ => true)
      | _, _ => true) &&
    (match miningArg accs i, oldDelegateArg accs i with
      | some M, some D => decide (D = M) || memberB w P D fun _ => true
      | _, _ => true))) &&
  (decide (poolArg accs i = some P) || (match oldDelegateArg accs i with
    | some D => !memberB w P D fun _ => true
    | none => true)) &&
  (match i with
    | .fillVault _ _ => decide (accs[4]?.map (·.key) ≠ some V)
    | _ => true)

theorem orderlyIxB_sound {P V : Key} {now : Nat} {w : World} {accs : List AccountInfo} {i : Ix}
    (h : orderlyIxB P V now w accs i = true) : OrderlyIx env P V now w accs i := by
  simp only [orderlyIxB, Bool.and_eq_true, Bool.or_eq_true, decide_eq_true_eq] at h
  obtain ⟨⟨h1, h2⟩, h3⟩ := h
  refine ⟨fun hP M m p hM hm hp => ?_, fun hP M D p hM hD hne hp => ?_, fun hP M D hM hD hne => ?_,
    fun hP D hD x hx => ?_, fun r e hi => ?_⟩
  · rcases h1 with h1 | ⟨⟨h1, -⟩, -⟩
    · exact absurd hP h1
    · rw [hM] at h1
      simp only [hm.2, hp.2] at h1
      exact orderlyStakeB_sound h1
  · rcases h1 with h1 | ⟨⟨-, h1⟩, -⟩
    · exact absurd hP h1
    · rw [hM, hD] at h1
      simp only [hp.2, Bool.or_eq_true, decide_eq_true_eq] at h1
      rcases h1 with h1 | h1
      · exact absurd h1 hne
      · obtain ⟨x, hx, hx2⟩ := memberB_sound h1
        refine ⟨x, hx, fun hr => ?_⟩
        simpa [hr] using hx2
  · rcases h1 with h1 | ⟨-, h1⟩
    · exact absurd hP h1
    · rw [hM, hD] at h1
      simp only [Bool.or_eq_true, decide_eq_true_eq] at h1
      rcases h1 with h1 | h1
      · exact absurd h1 hne
      · obtain ⟨x, hx, -⟩ := memberB_sound h1
        exact ⟨x, hx⟩
  · rcases h2 with h2 | h2
    · exact hP h2
    · rw [hD] at h2
      simp [memberB_of hx] at h2
  · subst hi
    simpa using h3

/-- Executable check: the event is possible, orderly, and (for an instruction) succeeds. -/
def orderlyB (P V : Key) (s : Chain) (e : Event) : Bool :=
  okEvent s e && (match e with
    | .ix accs i => orderlyIxB P V s.now s.world accs i
    | .tick _ => true
    | .gc k => decide (k ≠ P ∧ k ≠ V)
    | .ext _ => false)

theorem orderlyB_sound {P V : Key} {s : Chain} {e : Event} (h : orderlyB P V s e = true) :
    e.Valid env s ∧ Orderly env P V s e := by
  simp only [orderlyB, Bool.and_eq_true] at h
  obtain ⟨h0, h⟩ := h
  obtain ⟨h1, h2⟩ := okEvent_sound h0
  refine ⟨h1, ?_⟩
  cases e with
  | ix accs i => exact ⟨h2, orderlyIxB_sound h⟩
  | tick d => trivial
  | gc k => simpa [Orderly] using h
  | ext w => cases h

/-- Run a list of events, `none` if one of them is not orderly. -/
def orderlyRun (P V : Key) : Chain → List Event → Option Chain
  | s, [] => some s
  | s, e :: es => if orderlyB P V s e = true then orderlyRun P V (s.apply env e) es else none

theorem orderlyRun_sound {P V : Key} {s s' : Chain} {es : List Event} (h : orderlyRun P V s es = some s') :
    RunsWith env (Orderly env P V) s es s' := by
  induction es generalizing s with
  | nil => simp only [orderlyRun, Option.some.injEq] at h; subst h; exact .nil _
  | cons e es ih =>
    simp only [orderlyRun] at h
    split at h
    · rename_i he
      obtain ⟨h1, h2⟩ := orderlyB_sound he
      exact .cons h1 h2 (ih h)
    · cases h

theorem orderlyRun_eq {P V : Key} {es : List Event} (h : (orderlyRun P V s0 es).isSome = true) :
    RunsWith env (Orderly env P V) s0 es ((orderlyRun P V s0 es).getD s0) := by
  refine orderlyRun_sound ?_
  cases hr : orderlyRun P V s0 es with
  | none => rw [hr] at h; cases h
  | some x => rfl

/-- An orderly history with every kind of operation. -/
def orderlyStory : List Event :=
  story ++ [claim 100 121 131, deposit 100 120 100 .threeMonths 121, .tick (6 * DAY), distribute 100, .tick 10,
    withdraw 100 121 300 121, redelegate 100 120 500 121 120, extend 100 121 .flex .sixMonths (day0 + 100) 200 50 121,
    slash 100 120 10 10 none, decrease 100 120 7, distribute 100, .tick DAY, distribute 100, .tick 5, claim 100 120 130]

def afterOrderly : Chain := (orderlyRun 100 (vaultOf 100 101) s0 orderlyStory).getD s0

theorem orderlyStory_runs : RunsWith env (Orderly env 100 (vaultOf 100 101)) s0 orderlyStory afterOrderly :=
  orderlyRun_eq (by decide +kernel)

/-- Executable version of `LeavesLocked`, for events that succeed. -/
def leavesLockedB (s : Chain) (e : Event) : Bool :=
  okEvent s e && (match e with
    | .ix accs i => (match miningArg accs i with
      | some M => (match (s.world M).content, i with
        | .mining m, .withdrawMining a _ _ => unlockedB a m
        | .mining m, .extendStake _ _ _ b _ _ _ => unlockedB b m
        | .mining m, .slash _ n mu ex => unlockedB (if ex = none then mu else n) m
        | _, _ => true)
      | none => true)
    | _ => true)

theorem leavesLockedB_sound {s : Chain} {e : Event} (h : leavesLockedB s e = true) :
    e.Valid env s ∧ LeavesLocked env s e := by
  simp only [leavesLockedB, Bool.and_eq_true] at h
  obtain ⟨h0, h⟩ := h
  obtain ⟨h1, h2⟩ := okEvent_sound h0
  refine ⟨h1, ?_⟩
  cases e with
  | ix accs i =>
    refine ⟨h2, fun M m hM hm => ?_⟩
    simp only [hM, hm.2] at h
    cases i <;> first | exact unlockedB_sound h | trivial
  | _ => trivial

def leavesLockedRun : Chain → List Event → Option Chain
  | s, [] => some s
  | s, e :: es => if leavesLockedB s e = true then leavesLockedRun (s.apply env e) es else none

theorem leavesLockedRun_sound {s : Chain} {es : List Event} (h : (leavesLockedRun s es).isSome = true) :
    ∃ s', RunsWith env (LeavesLocked env) s es s' := by
  induction es generalizing s with
  | nil => exact ⟨s, .nil _⟩
  | cons e es ih =>
    simp only [leavesLockedRun] at h
    split at h
    · rename_i he
      obtain ⟨h1, h2⟩ := leavesLockedB_sound he
      obtain ⟨s', h3⟩ := ih h
      exact ⟨s', .cons h1 h2 h3⟩
    · cases h

end Verif.Demo
