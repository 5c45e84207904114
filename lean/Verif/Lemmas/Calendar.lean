import Verif.Spec.Tables
import Verif.Lemmas.Early
/-!
The index history of a pool gets at most one entry a day (C131).
-/

namespace Verif

open Spec

variable {env : Env}

theorem PoolChange.newDay {now : Nat} {w w' : World} {accs : List AccountInfo} {k : Key} {p p' : Pool} {i : Ix}
    (hp : PoolOk now p) (h : PoolChange env now w w' accs k p i p') :
    p'.cumulative = p.cumulative ∨ NewDay p now ∧ p'.cumulative = p.cumulative ++ [(midnight now, p'.index)] := by
  cases h with
  | same other => exact Or.inl rfl
  | stake hi quiet signed => exact Or.inl quiet.cumulative
  | distribute acc signed amount op same ok' =>
    by_cases hn : NewDay p now
    · obtain ⟨T, h1, h2, h3, h4, rfl⟩ := distribute_new hp hn op
      simp only
      split
      · exact Or.inr ⟨hn, rfl⟩
      · exact Or.inl rfl
    · obtain ⟨T, h1, rfl⟩ := distribute_again hp hn op
      exact Or.inl rfl
  | fill acc signed nonzero future later endBound bound => exact Or.inl rfl

/-- At most one entry for every day since `t`, today included only if it has one. -/
structure Paced (n t now : Nat) (p : Pool) : Prop where
  order : t ≤ now
  upTo : p.cumulative.length ≤ n + daysPassed t now + 1
  today : NewDay p now → p.cumulative.length ≤ n + daysPassed t now

theorem Paced.later {n t now now' : Nat} {p : Pool} (h : Paced n t now p) (hle : now ≤ now') : Paced n t now' p := by
  obtain ⟨h1, h2, h3⟩ := h
  by_cases hd : midnight now = midnight now'
  · have e : now / 86400 = now' / 86400 := by unfold midnight at hd; omega
    refine ⟨by omega, ?_, fun hn => ?_⟩
    · unfold daysPassed at h2 ⊢; omega
    · have := h3 (by unfold NewDay at hn ⊢; rw [hd]; exact hn)
      unfold daysPassed at this ⊢; omega
  · have e : now / 86400 + 1 ≤ now' / 86400 := by
      have : now / 86400 ≤ now' / 86400 := Nat.div_le_div_right hle
      unfold midnight at hd
      omega
    have e0 : t / 86400 ≤ now / 86400 := Nat.div_le_div_right h1
    refine ⟨by omega, ?_, fun _ => ?_⟩ <;> unfold daysPassed at h2 ⊢ <;> omega

/-- The pool's history over a run. -/
theorem runs_paced {s s' : Chain} {es : List Event} (hw : Wf env s.now s.world)
    (hr : RunsWith env (CleanEvent env) s es s') {P : Key} {p : Pool} (hp : PoolAt env s.world P p)
    (hl : 0 < (s.world P).lamports) :
    ∃ p', PoolAt env s'.world P p' ∧ 0 < (s'.world P).lamports ∧ Paced p.cumulative.length s.now s'.now p' := by
  refine runs_pool hw hr hp hl (fun u q => Paced p.cumulative.length s.now u.now q)
    ⟨Nat.le_refl _, by omega, fun _ => by omega⟩ ?_
  intro u e q q' hwu hv hq hi hev
  cases hev with
  | same none =>
    cases e with
    | ix accs i =>
      obtain ⟨er, hx⟩ := none _ _ rfl
      rw [apply_ix_error hx]; exact hi
    | tick d => exact hi.later (Nat.le_add_right _ _)
    | gc j => exact hi
    | ext w => exact hi
  | @ix accs i w' ret _ ok change =>
    rw [apply_ix_ok ok]
    rcases change.newDay (poolAt_good hwu hq).ok with h | ⟨hn, h⟩
    · exact ⟨hi.order, by rw [h]; exact hi.upTo, fun hn => by rw [h]; exact hi.today (by unfold NewDay at hn ⊢; rwa [h] at hn)⟩
    · have := hi.today hn
      refine ⟨hi.order, ?_, fun hn' => ?_⟩
      · rw [h, List.length_append]; simp only [List.length_cons, List.length_nil]; exact Nat.succ_le_succ this
      · exact absurd rfl (hn' (midnight u.now, q'.index) (by rw [h]; simp))

end Verif
