import Verif.Spec.Origin
import Verif.Lemmas.Access
import Verif.Lemmas.Distribution
/-!
Where pools and minings come from.
-/

namespace Verif

open Spec

variable {env : Env}

theorem Spec.Happens.cons {s s1 : Chain} {e : Event} {es rest : List Event} {accs : List AccountInfo} {i : Ix}
    (hv : e.Valid env s) (hc : CleanEvent env s e) (h : Happens env (s.apply env e) es s1 accs i rest) :
    Happens env s (e :: es) s1 accs i rest := by
  obtain ⟨⟨es1, rfl, h2⟩, h3⟩ := h
  exact ⟨⟨e :: es1, rfl, .cons hv hc h2⟩, h3⟩

theorem Spec.Happens.cases {s s1 : Chain} {e : Event} {es rest : List Event} {accs : List AccountInfo} {i : Ix}
    (h : Happens env s (e :: es) s1 accs i rest) :
    (s1 = s ∧ e = .ix accs i ∧ rest = es ∧ ∃ w ret, exec env s.now s.world accs i = .ok (w, ret)) ∨
    Happens env (s.apply env e) es s1 accs i rest := by
  obtain ⟨⟨es1, h1, h2⟩, h3⟩ := h
  cases h2 with
  | nil _ =>
    simp only [List.nil_append, List.cons.injEq] at h1
    exact Or.inl ⟨rfl, h1.1, h1.2.symm, h3⟩
  | @cons _ _ e' es' hv hc hr =>
    simp only [List.cons_append, List.cons.injEq] at h1
    obtain ⟨rfl, rfl⟩ := h1
    exact Or.inr ⟨⟨es', rfl, hr⟩, h3⟩

/-- A pool was there at the beginning, or was created on the way. -/
theorem pool_origin {s s' : Chain} {es : List Event} (hr : RunsWith env (CleanEvent env) s es s') (hw : Wf env s.now s.world)
    {k : Key} {p : Pool} (hp : PoolAt env s'.world k p) :
    (∃ q, PoolAt env s.world k q ∧ SamePool q p) ∨
    ∃ s1 rest P T V Y A more, Happens env s es s1 (P :: T :: V :: Y :: A :: more)
      (.initializePool p.fillAuthority p.distributeAuthority) rest ∧
      P.key = k ∧ T.key = p.rewardMint ∧ A.key = p.depositAuthority ∧ A.isSigner = true := by
  induction hr with
  | nil s => exact Or.inl ⟨p, hp, .refl p⟩
  | @cons s s' e es hv hc hrest ih =>
    rcases ih (wf_apply hw hv hc) hp with ⟨q, h1, h2⟩ | ⟨s1, rest, P, T, V, Y, A, more, h1, h2⟩
    · cases e with
      | ix accs i =>
        cases hx : exec env s.now s.world accs i with
        | error e => rw [apply_ix_error hx] at h1; exact Or.inl ⟨q, h1, h2⟩
        | ok r =>
          obtain ⟨w', ret⟩ := r
          rw [apply_ix_ok hx] at h1
          have hstep := step_of_exec hw hv hc hx
          rcases hstep.newPool h1 with ⟨p0, g1⟩ | ⟨f, d, P, T, V, Y, A, more, bump, rfl, rfl, rfl, rfl, g2, g3⟩
          · obtain ⟨p'', g2, g3, -⟩ := hstep.pool g1
            obtain rfl := PoolAt.unique h1 g2
            exact Or.inl ⟨p0, g1, (PoolEvent.ix hx g3).same_pool.trans h2⟩
          · have e1 : p.fillAuthority = f := h2.fillAuthority
            have e2 : p.distributeAuthority = d := h2.distributeAuthority
            rw [e1, e2]
            exact Or.inr ⟨s, es, P, T, V, Y, A, more, ⟨⟨[], rfl, .nil s⟩, w', ret, hx⟩, rfl, h2.rewardMint.symm,
              h2.depositAuthority.symm, g3⟩
      | tick d => exact Or.inl ⟨q, h1, h2⟩
      | gc j =>
        by_cases hk : k = j
        · subst hk
          have g := h1.2
          rw [show (s.apply env (.gc k)).world k = _ from world_set_same _ _ _] at g
          cases g
        · have e1 : (s.apply env (.gc j)).world k = s.world k := world_set_ne _ _ hk
          exact Or.inl ⟨q, (poolAt_congr e1).mp h1, h2⟩
      | ext w' =>
        by_cases ho : (s.world k).owner = env.programId
        · obtain ⟨e1, -, e3, -⟩ := hv.program_owned k ho
          exact Or.inl ⟨q, ⟨ho, e3 ▸ h1.2⟩, h2⟩
        · have g := (hv.new_zero k ho h1.1).1
          have g2 : (w' k).content = .pool q := h1.2
          rw [g2] at g; cases g
    · exact Or.inr ⟨s1, rest, P, T, V, Y, A, more, h1.cons hv hc, h2⟩

/-- A mining was there at the beginning, or was created on the way, and was not closed since. -/
theorem mining_origin {s s' : Chain} {es : List Event} (hr : RunsWith env (CleanEvent env) s es s') (hw : Wf env s.now s.world)
    {k : Key} {m : Mining} (hm : MiningAt env s'.world k m) (hi : m.accountType = 2) :
    ((∃ q, MiningAt env s.world k q ∧ SameMining q m) ∧ NeverClosed env s es k) ∨
    ∃ s1 rest P M Y more, Happens env s es s1 (P :: M :: Y :: more) (.initializeMining m.owner) rest ∧
      P.key = m.rewardPool ∧ M.key = k ∧ Y.isSigner = true ∧
      NeverClosed env (s1.apply env (.ix (P :: M :: Y :: more) (.initializeMining m.owner))) rest k := by
  induction hr with
  | nil s =>
    refine Or.inl ⟨⟨m, hm, .refl m⟩, ?_⟩
    rintro s1 accs rest ⟨⟨es1, h1, -⟩, -⟩
    cases es1 <;> cases h1
  | @cons s s' e es hv hc hrest ih =>
    rcases ih (wf_apply hw hv hc) hm with ⟨⟨q, h1, h2⟩, h3⟩ | ⟨s1, rest, P, M, Y, more, h1, h2⟩
    · have never : (∀ accs w ret, e = .ix accs .closeMining → exec env s.now s.world accs .closeMining = .ok (w, ret) →
          miningArg accs .closeMining ≠ some k) → NeverClosed env s (e :: es) k := by
        intro h s1 accs rest hh
        rcases hh.cases with ⟨-, g1, -, w, ret, g2⟩ | g
        · exact h accs w ret g1 g2
        · exact h3 s1 accs rest g
      cases e with
      | ix accs i =>
        cases hx : exec env s.now s.world accs i with
        | error e =>
          rw [apply_ix_error hx] at h1
          refine Or.inl ⟨⟨q, h1, h2⟩, never ?_⟩
          rintro accs w ret h g
          cases h
          rw [hx] at g; cases g
        | ok r =>
          obtain ⟨w', ret⟩ := r
          have e1 := apply_ix_ok hx
          rw [e1] at h1
          have hstep := step_of_exec hw hv hc hx
          have hq : q.accountType = 2 := h2.accountType.symm.trans hi
          rcases hstep.newMining h1 with ⟨p0, g1⟩ | ⟨-, g⟩ | ⟨o, P, M, Y, more, bump, rfl, rfl, rfl, g1, rfl, -⟩
          · rcases hstep.mining g1 with ⟨m2, g2, g3, -⟩ | ⟨-, -, g⟩ | ⟨f, d, rfl, g⟩
            · obtain rfl := MiningAt.unique h1 g2
              refine Or.inl ⟨⟨p0, g1, g3.trans h2⟩, never ?_⟩
              rintro accs w ret2 h g4 g5
              cases h
              cases hstep with
              | stake _ op => exact op.elim
              | close accs_eq _ _ _ _ _ _ _ _ _ _ _ _ _ closed =>
                subst accs_eq
                cases g5
                have h5 := h1.2
                simp only [closed] at h5
                cases h5
            · have h5 := h1.2; simp only [g] at h5; cases h5
            · exfalso
              by_cases e2 : w' k = s.world k
              · obtain rfl := MiningAt.unique g1 ((miningAt_congr e2).mp h1)
                rw [g.type] at hq; cases hq
              · cases hstep with
                | stake _ op => exact op.elim
                | @initPool f d P T V Y A R K S rest bump accs_eq signedY signedA owned len fresh notPda vault pool'
                    vaultBefore vault' payer payer' frame =>
                  have hk : k = P.key := by
                    apply Classical.byContradiction
                    intro hk
                    refine e2 (frame k hk ?_ ?_)
                    · rintro rfl; exact env.program_ne_system (g1.1.symm.trans vaultBefore.2.2)
                    · rintro rfl; exact env.program_ne_system (g1.1.symm.trans payer.2.1)
                  subst hk
                  have h5 := h1.2; simp only [pool'] at h5; cases h5
          · rw [g.type] at hq; cases hq
          · have e2 : m.owner = o := h2.owner
            rw [e2]
            refine Or.inr ⟨s, es, P, M, Y, more, ⟨⟨[], rfl, .nil s⟩, w', ret, hx⟩, h2.rewardPool.symm, rfl, ?_, ?_⟩
            · cases hstep with
              | stake _ op => exact op.elim
              | initMining accs_eq signedY => cases accs_eq; exact signedY
            · exact h3
      | tick d =>
        exact Or.inl ⟨⟨q, h1, h2⟩, never (by rintro _ _ _ h; cases h)⟩
      | gc j =>
        by_cases hk : k = j
        · subst hk
          have g := h1.2
          rw [show (s.apply env (.gc k)).world k = _ from world_set_same _ _ _] at g
          cases g
        · have e1 : (s.apply env (.gc j)).world k = s.world k := world_set_ne _ _ hk
          exact Or.inl ⟨⟨q, (miningAt_congr e1).mp h1, h2⟩, never (by rintro _ _ _ h; cases h)⟩
      | ext w' =>
        by_cases ho : (s.world k).owner = env.programId
        · obtain ⟨e1, -, e3, -⟩ := hv.program_owned k ho
          exact Or.inl ⟨⟨q, ⟨ho, e3 ▸ h1.2⟩, h2⟩, never (by rintro _ _ _ h; cases h)⟩
        · have g := (hv.new_zero k ho h1.1).1
          have g2 : (w' k).content = .mining q := h1.2
          rw [g2] at g; cases g
    · exact Or.inr ⟨s1, rest, P, M, Y, more, h1.cons hv hc, h2⟩

end Verif
