import Verif.Lemmas.Demo
import Verif.Spec.Terms
/-!
Showing by evaluation that an instruction succeeds in a concrete state.
-/

namespace Verif.Demo

open Spec

/-- The world after an instruction, if it succeeds. -/
def worldAfter (s : Chain) : Event → Option World
  | .ix accs i => match exec env s.now s.world accs i with | .ok (w, _) => some w | .error _ => none
  | _ => none

/-- The return data of an instruction, if it succeeds. -/
def returned (s : Chain) : Event → Option Nat
  | .ix accs i => match exec env s.now s.world accs i with | .ok (_, r) => r | .error _ => none
  | _ => none

/-- A well-formed state in which the given instruction is submitted by real signers and succeeds. -/
structure Succeeds (s : Chain) (accs : List AccountInfo) (i : Ix) (w' : World) : Prop where
  wf : Wf env s.now s.world
  signers : RealSigners accs
  clean : NotPoolAsMining env s.world accs i
  ok : ∃ ret, exec env s.now s.world accs i = .ok (w', ret)

theorem succeeds {s : Chain} (hr : Reachable env s) {accs : List AccountInfo} {i : Ix}
    (h : okEvent s (.ix accs i) = true) : ∃ w', Succeeds s accs i w' := by
  obtain ⟨h1, h2⟩ := okEvent_sound h
  have h3 : ∃ w' ret, exec env s.now s.world accs i = .ok (w', ret) := by
    simp only [okEvent, Bool.and_eq_true] at h
    have := h.2
    cases hx : exec env s.now s.world accs i with
    | error e => rw [hx] at this; simp at this
    | ok r => exact ⟨r.1, r.2, rfl⟩
  obtain ⟨w', ret, h3⟩ := h3
  exact ⟨w', reachable_wf hr, h1, h2, ret, h3⟩

/-- Pool and mining stored at an address. -/
def poolOf (w : World) (k : Key) : Option Pool := match (w k).content with | .pool p => some p | _ => none
def miningOf (w : World) (k : Key) : Option Mining := match (w k).content with | .mining m => some m | _ => none

theorem exec_of_ok {s : Chain} {accs : List AccountInfo} {i : Ix} (h : okEvent s (.ix accs i) = true) :
    ∃ ret, exec env s.now s.world accs i = .ok ((s.apply env (.ix accs i)).world, ret) := by
  simp only [okEvent, Bool.and_eq_true] at h
  have := h.2
  cases hx : exec env s.now s.world accs i with
  | error e => rw [hx] at this; simp at this
  | ok r => exact ⟨r.2, by rw [apply_ix_ok (w' := r.1) (ret := r.2) hx]⟩

/-- The mining at `k` satisfies `f`. -/
def hasMining (w : World) (k : Key) (f : Mining → Bool) : Bool :=
  decide ((w k).owner = env.programId) && (match (w k).content with | .mining m => f m | _ => false)

/-- The pool at `k` satisfies `f`. -/
def hasPool (w : World) (k : Key) (f : Pool → Bool) : Bool :=
  decide ((w k).owner = env.programId) && (match (w k).content with | .pool m => f m | _ => false)

theorem hasMining_sound {w : World} {k : Key} {f : Mining → Bool} (h : hasMining w k f = true) :
    ∃ m, MiningAt env w k m ∧ f m = true := by
  simp only [hasMining, Bool.and_eq_true, decide_eq_true_eq] at h
  obtain ⟨h1, h2⟩ := h
  split at h2
  · rename_i m hm; exact ⟨m, ⟨h1, hm⟩, h2⟩
  · cases h2

theorem hasPool_sound {w : World} {k : Key} {f : Pool → Bool} (h : hasPool w k f = true) :
    ∃ m, PoolAt env w k m ∧ f m = true := by
  simp only [hasPool, Bool.and_eq_true, decide_eq_true_eq] at h
  obtain ⟨h1, h2⟩ := h
  split at h2
  · rename_i m hm; exact ⟨m, ⟨h1, hm⟩, h2⟩
  · cases h2

/-- The token account at `k` satisfies `f`. -/
def hasToken (w : World) (k : Key) (f : TokenAcc → Bool) : Bool :=
  decide ((w k).owner = env.tokenProgram) && (match (w k).content with | .token m => f m | _ => false)

theorem hasToken_sound {w : World} {k : Key} {f : TokenAcc → Bool} (h : hasToken w k f = true) :
    ∃ m, TokenAt env w k m ∧ f m = true := by
  simp only [hasToken, Bool.and_eq_true, decide_eq_true_eq] at h
  obtain ⟨h1, h2⟩ := h
  split at h2
  · rename_i m hm; exact ⟨m, ⟨h1, hm⟩, h2⟩
  · cases h2

theorem run_eq {es : List Event} (h : (run s0 es).isSome = true) : run s0 es = some ((run s0 es).getD s0) := by
  cases hr : run s0 es with
  | none => rw [hr] at h; cases h
  | some x => rfl

/-- The state after a list of events that all succeed is reachable. -/
theorem after_reachable {es : List Event} (h : (run s0 es).isSome = true) : Reachable env ((run s0 es).getD s0) :=
  reachable (run_eq h)

/-- A list of events that all succeed is a history. -/
theorem some_run {s : Chain} {es : List Event} (h : (run s es).isSome = true) :
    ∃ s', RunsWith env (CleanEvent env) s es s' := by
  cases hr : run s es with
  | none => rw [hr] at h; cases h
  | some x => exact ⟨x, run_sound hr⟩

end Verif.Demo
