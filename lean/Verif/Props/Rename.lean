import Verif.Lemmas.RenameExec
import Verif.Lemmas.DemoOrderly
/-!
C90: no address is privileged.
-/

namespace Verif

open Spec

section
variable {env : Env}

/-- C90: if all addresses are exchanged for others (in the accounts, in the list of accounts, in the arguments, and likewise the
addresses of the programs and the derived ones), every instruction has the same outcome: the same error, or the same return
value and the same accounts with their addresses exchanged.  So there is no address that the program treats in a special way,
such as a hidden owner.  This holds in every state, reachable or not. -/
theorem C90_instruction (r : Renaming) (now : Nat) (w : World) (accs : List AccountInfo) (i : Ix) :
    exec (r.env env) now (r.world w) (accs.map r.info) (r.ix i) =
      match exec env now w accs i with
      | .error e => .error e
      | .ok (w', ret) => .ok (r.world w', ret) := by
  rw [exec_ren]
  cases exec env now w accs i <;> rfl

/-- C90 for histories: the same history with other addresses is possible if and only if the history is, and leads to the same
accounts with other addresses. -/
theorem C90_history (r : Renaming) (s s' : Chain) (es : List Event) :
    Runs env s es s' ↔ Runs (r.env env) (r.chain s) (es.map r.event) (r.chain s') := by
  have hw : ∀ {w w' : World}, r.world w = r.world w' → w = w' := by
    intro w w' h
    funext k
    have := congrFun h (r.to k)
    rwa [r.world_at, r.world_at, r.account_eq] at this
  induction es generalizing s with
  | nil =>
    constructor
    · intro h; cases h; exact .nil _
    · intro h
      have : r.chain s = r.chain s' := by generalize r.chain s = a at h; generalize r.chain s' = b at h; cases h; rfl
      have h1 : s.now = s'.now := by have := congrArg Chain.now this; exact this
      have h2 := hw (congrArg Chain.world this)
      obtain ⟨a, b⟩ := s
      obtain ⟨c, d⟩ := s'
      cases h1; cases h2
      exact .nil _
  | cons e es ih =>
    constructor
    · intro h
      cases h with
      | cons hv h =>
        refine .cons ((valid_ren r).mpr hv) ?_
        rw [apply_ren]
        exact (ih _).mp h
    · intro h
      simp only [List.map_cons] at h
      cases h with
      | cons hv h =>
        refine .cons ((valid_ren r).mp hv) ((ih _).mpr ?_)
        rw [← apply_ren]
        exact h

end

section Examples
open Demo

theorem runs_of {C : Chain → Event → Prop} {env : Env} {s s' : Chain} {es : List Event} (h : RunsWith env C s es s') :
    Runs env s es s' := by
  induction h with
  | nil => exact .nil _
  | cons hv _ _ ih => exact .cons hv ih

/-- Two addresses exchanged. -/
def exchange (a b : Key) (ha : a ≠ 0) (hb : b ≠ 0) : Renaming where
  to := fun k => if k = a then b else if k = b then a else k
  back := fun k => if k = a then b else if k = b then a else k
  back_to := fun k => by grind
  to_back := fun k => by grind
  zero := by simp [Ne.symm ha, Ne.symm hb]

/-- The users 120 and 121 of the example history exchanged. -/
example : ∃ s', Runs ((exchange 120 121 (by decide) (by decide)).env Demo.env)
    ((exchange 120 121 (by decide) (by decide)).chain s0) (story.map (exchange 120 121 (by decide) (by decide)).event) s' ∧
    (exchange 120 121 (by decide) (by decide)).event (deposit 100 120 500 .oneYear 121) ≠ deposit 100 120 500 .oneYear 121 := by
  have h : (run s0 story).isSome = true := by decide +kernel
  obtain ⟨s', hs'⟩ := Option.isSome_iff_exists.mp h
  refine ⟨_, (C90_history _ _ s' _).mp (runs_of (run_sound hs')), ?_⟩
  intro h
  simp [Renaming.event, deposit, Renaming.ix, exchange] at h

end Examples

end Verif
