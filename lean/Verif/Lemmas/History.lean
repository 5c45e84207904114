import Verif.Lemmas.Change
/-!
What one event, and a whole history, does to a given pool or mining.
-/

namespace Verif

open Spec

variable {env : Env}

/-- How an event changes the pool at `k`. -/
inductive PoolEvent (env : Env) (s : Chain) (k : Key) (p : Pool) : Event → Pool → Prop
  | same {e : Event} (none : ∀ accs i, e = .ix accs i → ∃ er, exec env s.now s.world accs i = .error er) :
      PoolEvent env s k p e p
  | ix {accs : List AccountInfo} {i : Ix} {w' : World} {ret : Option Nat} {p' : Pool}
      (ok : exec env s.now s.world accs i = .ok (w', ret))
      (change : PoolChange env s.now s.world w' accs k p i p') : PoolEvent env s k p (.ix accs i) p'

/-- A pool account with lamports stays a pool account with lamports, whatever happens. -/
theorem apply_pool {s : Chain} (hw : Wf env s.now s.world) {e : Event} (hv : e.Valid env s) (hc : CleanEvent env s e)
    {k : Key} {p : Pool} (hp : PoolAt env s.world k p) (hl : 0 < (s.world k).lamports) :
    ∃ p', PoolAt env (s.apply env e).world k p' ∧ 0 < ((s.apply env e).world k).lamports ∧ PoolEvent env s k p e p' := by
  cases e with
  | ix accs i =>
    cases hx : exec env s.now s.world accs i with
    | error e =>
      rw [apply_ix_error hx]
      refine ⟨p, hp, hl, .same ?_⟩
      rintro _ _ h; cases h; exact ⟨e, hx⟩
    | ok r =>
      obtain ⟨w', ret⟩ := r
      rw [apply_ix_ok hx]
      obtain ⟨p', h1, h2, h3, -⟩ := (step_of_exec hw hv hc hx).pool hp
      refine ⟨p', h1, ?_, .ix hx h2⟩
      show 0 < (w' k).lamports
      rw [h3]; exact hl
  | tick d => exact ⟨p, hp, hl, .same (by rintro _ _ h; cases h)⟩
  | gc j =>
    have hne : k ≠ j := by rintro rfl; exact absurd (show (s.world k).lamports = 0 from hv) (by omega)
    have e1 : (s.apply env (.gc j)).world k = s.world k := world_set_ne _ _ hne
    exact ⟨p, (poolAt_congr e1).mpr hp, by rw [e1]; exact hl, .same (by rintro _ _ h; cases h)⟩
  | ext w' =>
    obtain ⟨e1, -, e3, e4⟩ := hv.program_owned k hp.1
    exact ⟨p, ⟨e1.trans hp.1, e3.trans hp.2⟩, Nat.lt_of_lt_of_le hl e4, .same (by rintro _ _ h; cases h)⟩

/-- Later states of a pool, by induction over the history: a reflexive relation closed under events holds. -/
theorem runs_pool {s s' : Chain} {es : List Event} (hw : Wf env s.now s.world)
    (hr : RunsWith env (CleanEvent env) s es s') {k : Key} {p : Pool} (hp : PoolAt env s.world k p)
    (hl : 0 < (s.world k).lamports) (Q : Chain → Pool → Prop) (h0 : Q s p)
    (hQ : ∀ s e q q', Wf env s.now s.world → e.Valid env s → PoolAt env s.world k q → Q s q → PoolEvent env s k q e q' →
      Q (s.apply env e) q') :
    ∃ p', PoolAt env s'.world k p' ∧ 0 < (s'.world k).lamports ∧ Q s' p' := by
  induction hr generalizing p with
  | nil s => exact ⟨p, hp, hl, h0⟩
  | cons hv hc _ ih =>
    obtain ⟨p1, h1, h2, h3⟩ := apply_pool hw hv hc hp hl
    exact ih (wf_apply hw hv hc) h1 h2 (hQ _ _ _ _ hw hv hp h0 h3)

theorem PoolEvent.same_pool {s : Chain} {k : Key} {p p' : Pool} {e : Event} (h : PoolEvent env s k p e p') :
    SamePool p p' := by
  cases h with
  | same => exact .refl p
  | ix ok change =>
    cases change with
    | same => exact .refl p
    | stake hi quiet signed => exact quiet.same
    | distribute acc signed amount op same ok' => exact same
    | fill acc signed nonzero future later endBound bound => exact ⟨rfl, rfl, rfl, rfl, rfl, rfl⟩

theorem Spec.RunsWith.append {C : Chain → Event → Prop} {s s' s'' : Chain} {es es' : List Event}
    (h : RunsWith env C s es s') (h' : RunsWith env C s' es' s'') : RunsWith env C s (es ++ es') s'' := by
  induction h with
  | nil => exact h'
  | cons hv hc _ ih => exact .cons hv hc (ih h')

theorem Spec.Reachable.step {s : Chain} (h : Reachable env s) {e : Event} (hv : e.Valid env s) (hc : CleanEvent env s e) :
    Reachable env (s.apply env e) := by
  obtain ⟨s0, es, hg, hr⟩ := h
  exact ⟨s0, es ++ [e], hg, hr.append (.cons hv hc (.nil _))⟩

/-- Induction over reachable states. -/
theorem reachable_induction {Q : Chain → Prop} (h0 : ∀ s, Genesis env s → Q s)
    (hQ : ∀ s e, Wf env s.now s.world → e.Valid env s → CleanEvent env s e → Q s → Q (s.apply env e)) {s : Chain}
    (h : Reachable env s) : Q s := by
  obtain ⟨s0, es, hg, hr⟩ := h
  have hw := wf_genesis hg
  have hq := h0 s0 hg
  clear hg
  induction hr with
  | nil => exact hq
  | cons hv hc _ ih => exact ih (wf_apply hw hv hc) (hQ _ _ hw hv hc hq)

theorem run_now_le {C : Chain → Event → Prop} {s s' : Chain} {es : List Event} (h : RunsWith env C s es s') :
    s.now ≤ s'.now := by
  induction h with
  | nil => exact Nat.le_refl _
  | @cons s _ e _ _ _ _ ih =>
    refine Nat.le_trans ?_ ih
    cases e with
    | ix accs i =>
      cases hx : exec env s.now s.world accs i with
      | error er => rw [apply_ix_error hx]; exact Nat.le_refl _
      | ok r => rw [apply_ix_ok (w' := r.1) (ret := r.2) hx]; exact Nat.le_refl _
    | tick d => exact Nat.le_add_right _ _
    | gc k => exact Nat.le_refl _
    | ext w => exact Nat.le_refl _

end Verif
