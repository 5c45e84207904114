import Verif.Spec.Transactions
import Verif.Lemmas.Codec
import Verif.Lemmas.WfLemmas
/-!
Histories of transactions and histories of events.
-/

namespace Verif

open Spec

variable {env : Env} {C : Chain → Event → Prop}

theorem runsWith_append {s s' s'' : Chain} {es es' : List Event} (h1 : RunsWith env C s es s')
    (h2 : RunsWith env C s' es' s'') : RunsWith env C s (es ++ es') s'' := by
  induction h1 with
  | nil => exact h2
  | cons hv hc _ ih => exact .cons hv hc (ih h2)

/-- An action that succeeds is an event that goes through. -/
theorem action_event {now : Nat} {w w' : World} {a : Action} (h : runAction env now w a = some w') :
    ∃ e, Action.event a = some e ∧ goesThrough env ⟨now, w⟩ e = true ∧ (Chain.mk now w).apply env e = ⟨now, w'⟩ := by
  cases a with
  | call accs data =>
    simp only [runAction, entrypoint] at h
    cases hd : decodeIx data with
    | none => rw [hd] at h; cases h
    | some i =>
      rw [hd] at h
      dsimp only at h
      refine ⟨.ix accs i, by simp [Action.event, hd], ?_⟩
      cases hx : exec env now w accs i with
      | error x => rw [hx] at h; cases h
      | ok r =>
        obtain ⟨v, ret⟩ := r
        simp only [hx, Option.some.injEq] at h
        subst h
        exact ⟨by simp [goesThrough, succeeded, hx], apply_ix_ok (s := ⟨now, w⟩) hx⟩
  | other v =>
    simp only [runAction, Option.some.injEq] at h
    subst h
    exact ⟨_, rfl, rfl, rfl⟩
  | abort => cases h

theorem actions_events {now : Nat} {w w' : World} {as : List Action} (h : runActions env now w as = some w')
    (hv : Along env (fun s e => e.Valid env s) now w as) (hc : Along env C now w as) :
    RunsWith env (fun s e => C s e ∧ goesThrough env s e = true) ⟨now, w⟩ (as.filterMap Action.event) ⟨now, w'⟩ := by
  induction as generalizing w with
  | nil =>
    simp only [runActions, Option.some.injEq] at h
    subst h
    exact .nil _
  | cons a as ih =>
    simp only [runActions] at h
    cases ha : runAction env now w a with
    | none => rw [ha] at h; cases h
    | some v =>
      rw [ha] at h
      obtain ⟨e, h1, h2, h3⟩ := action_event ha
      rw [List.filterMap_cons_some h1]
      refine .cons (hv.1 e h1) ⟨hc.1 e h1, h2⟩ ?_
      rw [h3]
      exact ih h (hv.2 v ha) (hc.2 v ha)

theorem moment_events {s : Chain} {m : Moment} (hv : Possible env s m) (hc : Meets env C s m) :
    RunsWith env (fun s e => C s e ∧ goesThrough env s e = true) s (eventsOf env s m) (s.after env m) := by
  cases m with
  | tx as =>
    simp only [eventsOf, Chain.after]
    cases hr : runActions env s.now s.world as with
    | none =>
      rw [if_neg (fun ⟨w, h⟩ => by rw [hr] at h; cases h)]
      exact .nil _
    | some w =>
      rw [if_pos ⟨w, hr⟩]
      exact actions_events hr hv (hc ⟨w, hr⟩)
  | tick d => exact .cons trivial ⟨hc, rfl⟩ (.nil _)
  | gc k => exact .cons hv ⟨hc, rfl⟩ (.nil _)

end Verif
