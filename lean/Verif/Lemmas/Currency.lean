import Verif.Spec.Currency
import Verif.Lemmas.Solvency
/-!
The vault of a pool, and the token it holds (C126).
-/

namespace Verif

open Spec

variable {env : Env}

theorem tokenAt_congr {w w' : World} {k : Key} {t : TokenAcc} (h : w' k = w k) : TokenAt env w' k t ↔ TokenAt env w k t := by
  unfold TokenAt; rw [h]

theorem Shell.token {w w' : World} {k : Key} {t : TokenAcc} (h : Shell env (w k) (w' k)) (ht : TokenAt env w' k t) :
    TokenAt env w k t := by
  obtain ⟨h1, -, -, h2⟩ := h
  have ho := h1.symm.trans ht.1
  rcases h2 with h2 | ⟨h3, -⟩
  · exact ⟨ho, h2 ▸ ht.2⟩
  · exact absurd (h3.symm.trans ho) env.program_ne_token

theorem TransferEffect.mint {w w' : World} {S V A : Key} {n : Nat} (h : TransferEffect env w w' S V A n) {k : Key}
    {t' : TokenAcc} (ht : TokenAt env w' k t') : ∃ t, TokenAt env w k t ∧ t.mint = t'.mint := by
  by_cases e1 : k = S
  · obtain ⟨t, t1, h1, h2, h3, -⟩ := h.srcTok
    obtain rfl := TokenAt.unique (e1 ▸ ht) h2
    exact ⟨t, e1 ▸ h1, h3.1.symm⟩
  by_cases e2 : k = V
  · obtain ⟨t, t1, h1, h2, h3⟩ := h.dstTok
    obtain rfl := TokenAt.unique (e2 ▸ ht) h2
    exact ⟨t, e2 ▸ h1, h3.1.symm⟩
  · exact ⟨t', (tokenAt_congr (h.frame k e1 e2)).mp ht, rfl⟩

/-- The mint of a token account is the one it had, or the account is the vault of a new pool. -/
theorem Step.mint {now : Nat} {w w' : World} {accs : List AccountInfo} {i : Ix} {ret : Option Nat}
    (h : Step env now w w' accs i ret) {K : Key} {t' : TokenAcc} (hK : TokenAt env w' K t') :
    (∃ t, TokenAt env w K t ∧ t.mint = t'.mint) ∨ ∃ Q bump, env.findVault Q t'.mint = some (K, bump) := by
  have kept : w' K = w K → ∃ t, TokenAt env w K t ∧ t.mint = t'.mint := fun e => ⟨t', (tokenAt_congr e).mp hK, rfl⟩
  have keptS : Shell env (w K) (w' K) → ∃ t, TokenAt env w K t ∧ t.mint = t'.mint := fun e => ⟨t', e.token hK, rfl⟩
  cases h with
  | stake accs_eq op chk del quiet same sfo ok' sameDel eff shell => exact Or.inl (keptS (shell K))
  | redelegate accs_eq signed op chk newDel oldOk oldAt ne quiet same sfo ok' sameNew sameOld neP eff shell =>
    exact Or.inl (keptS (shell K))
  | decrease accs_eq chk pool op mining mining' same ok' sfo frame shell =>
    exact Or.inl (keptS (shell K))
  | distribute accs_eq signed auth good pool pool' amount op same ok' frame shell =>
    exact Or.inl (keptS (shell K))
  | @claim Q T W M O A U Kk rest q m m1 n accs_eq signedO signedA eff =>
    left
    by_cases e1 : K = M.key
    · subst e1
      have := eff.mining'.2; rw [hK.2] at this; cases this
    by_cases hn : n = 0
    · exact kept (eff.zero hn _ e1)
    · obtain ⟨w1, h1, h2⟩ := eff.transfer (Nat.pos_of_ne_zero hn)
      obtain ⟨t, h3, h4⟩ := h2.mint hK
      exact ⟨t, (tokenAt_congr (h1 K e1)).mp h3, h4⟩
  | @fill r e0 Q T W F S Kk rest q w1 accs_eq signed auth good pool vault nonzero future later endBound bound pool' w1_frame
      transfer frame neS neV shell =>
    left
    obtain ⟨t, h3, h4⟩ := transfer.mint hK
    exact ⟨t, (shell K).token h3, h4⟩
  | @close M O G A Q rest q m m1 accs_eq signedO signedA good pool auth mining init miningOk owner refreshed sfo paid target
      closed credited frame ne neG =>
    left
    by_cases e1 : K = M.key
    · subst e1
      have := hK.2; rw [closed] at this; cases this
    by_cases e2 : K = G.key
    · subst e2
      have := hK.1; rw [credited] at this
      exact absurd (this.symm.trans target) env.token_ne_system
    · exact kept (frame K e1 e2)
  | @initPool f d Q T W Y A R Kk S rest bump accs_eq signedY signedA owned len fresh notPda vault pool' vaultBefore vault'
      payer payer' frame neVP neYP neYV =>
    by_cases e1 : K = W.key
    · right
      subst e1
      have := hK.2; rw [vault'] at this
      cases this
      exact ⟨Q.key, bump, vault⟩
    left
    by_cases e2 : K = Q.key
    · subst e2
      have := hK.2; rw [pool'] at this; cases this
    by_cases e3 : K = Y.key
    · subst e3
      have := hK.1; rw [payer'] at this
      exact absurd (this.symm.trans payer.2.1) env.token_ne_system
    · exact kept (frame K e2 e1 e3)
  | @initMining o Q M Y S rest bump accs_eq signedY owned addr before mining' payer payer' frame ne neP =>
    left
    by_cases e1 : K = M.key
    · subst e1
      have := hK.2; rw [mining'] at this; cases this
    by_cases e3 : K = Y.key
    · subst e3
      have := hK.1; rw [payer'] at this
      exact absurd (this.symm.trans payer.2.1) env.token_ne_system
    · exact kept (frame K e1 e3)

theorem Step.newVault {now : Nat} {w w' : World} {accs : List AccountInfo} {i : Ix} {ret : Option Nat}
    (h : Step env now w w' accs i ret) {k : Key} {p' : Pool} (hp : PoolAt env w' k p') :
    (∃ p, PoolAt env w k p) ∨ ∃ V, env.findVault k p'.rewardMint = some (V, p'.bump) := by
  rcases h.newPool hp with h1 | ⟨f, d, P, T, V, Y, A, rest, bump, rfl, h2, h3, h4, -⟩
  · exact Or.inl h1
  · right
    cases h with
    | stake _ op => exact op.elim
    | @initPool f d Q T W Y A R Kk S rest bump accs_eq signedY signedA owned len fresh notPda vault pool' vaultBefore vault'
        payer payer' frame neVP neYP neYV =>
      rw [accs_eq] at h2
      cases h2
      subst h3
      have := hp.2; rw [pool'] at this
      cases this
      exact ⟨_, vault⟩

/-- What the state says about the vaults of `P`. -/
structure Vaults (env : Env) (w : World) (P : Key) : Prop where
  vaulted : Vaulted env w P
  found : ∀ p, PoolAt env w P p → ∃ V, env.findVault P p.rewardMint = some (V, p.bump)
  minted : ∀ T b K t, env.vaultAddr P T b = some K → TokenAt env w K t → t.mint = T

theorem vaults_genesis {s : Chain} (hg : Genesis env s) (P : Key) : Vaults env s.world P := by
  refine ⟨fun T b K hK ho => ?_, fun p hp => ?_, fun T b K t hK ht => ?_⟩
  · have := (hg.pda K (Or.inr ⟨P, T, b, hK⟩)).1
    exact absurd (this.symm.trans ho) (Ne.symm env.token_ne_system)
  · have := (hg.owned P hp.1).1
    rw [hp.2] at this; cases this
  · have := (hg.pda K (Or.inr ⟨P, T, b, hK⟩)).1
    exact absurd (this.symm.trans ht.1) (Ne.symm env.token_ne_system)

theorem Step.vaults {now : Nat} {w w' : World} {accs : List AccountInfo} {i : Ix} {ret : Option Nat}
    (hi : env.PdaInjective) {P : Key} (hv : Vaults env w P) (h : Step env now w w' accs i ret) : Vaults env w' P := by
  refine ⟨h.vaulted hi hv.vaulted, fun p' hp' => ?_, fun T b K t hK ht => ?_⟩
  · rcases h.newVault hp' with ⟨p, hp⟩ | h1
    · have hs := h.samePool hp hp'
      rw [hs.rewardMint, hs.bump]
      exact hv.found p hp
    · exact h1
  · rcases h.mint ht with ⟨t0, h1, h2⟩ | ⟨Q, b', h1⟩
    · exact h2.symm.trans (hv.minted T b K t0 hK h1)
    · exact ((hi.vault _ _ _ _ _ _ _ hK (env.findVault_spec _ _ _ _ h1)).2.1).symm

theorem apply_vaults (hi : env.PdaInjective) {P : Key} {s : Chain} {e : Event} (hw : Wf env s.now s.world)
    (hv : e.Valid env s) (hc : CleanEvent env s e) (hk : KeepsToken env P s e) (h : Vaults env s.world P) :
    Vaults env (s.apply env e).world P := by
  cases e with
  | ix accs i =>
    cases hx : exec env s.now s.world accs i with
    | error e => rw [apply_ix_error hx]; exact h
    | ok r =>
      obtain ⟨w', ret⟩ := r
      rw [apply_ix_ok hx]
      exact (step_of_exec hw hv hc hx).vaults hi h
  | tick d => exact h
  | gc j =>
    have e0 : (s.apply env (.gc j)).world j = _ := world_set_same _ _ _
    have e1 : ∀ k, k ≠ j → (s.apply env (.gc j)).world k = s.world k := fun k hk => world_set_ne _ _ hk
    have e2 := e1 P (Ne.symm hk)
    refine ⟨fun T b K hK ho => ?_, fun p hp => h.found p ((poolAt_congr e2).mp hp), fun T b K t hK ht => ?_⟩
    · by_cases hk : K = j
      · subst hk; rw [e0] at ho; exact absurd ho (Ne.symm env.token_ne_system)
      · rw [e1 K hk] at ho
        obtain ⟨p, h1, h2⟩ := h.vaulted T b K hK ho
        exact ⟨p, (poolAt_congr e2).mpr h1, h2⟩
    · by_cases hk : K = j
      · subst hk; have := ht.1; rw [e0] at this; exact absurd this (Ne.symm env.token_ne_system)
      · exact h.minted T b K t hK ((tokenAt_congr (e1 K hk)).mp ht)
  | ext w' =>
    have old : ∀ T b K, env.vaultAddr P T b = some K → (w' K).owner = env.tokenProgram →
        (s.world K).owner = env.tokenProgram := by
      intro T b K hK ho
      rcases (hw K).pda (Or.inr ⟨P, T, b, hK⟩) with ⟨h1, -⟩ | h1 | h1
      · obtain ⟨e1, -⟩ := hv.program_owned K h1
        exact absurd ((e1.trans h1).symm.trans ho) env.program_ne_token
      · exact h1
      · obtain ⟨e1, -⟩ := hv.pda_system K (Or.inr ⟨P, T, b, hK⟩) h1
        exact absurd (e1.symm.trans ho) (Ne.symm env.token_ne_system)
    refine ⟨fun T b K hK ho => ?_, fun p hp => ?_, fun T b K t hK ht => ?_⟩
    · obtain ⟨p, h1, h2⟩ := h.vaulted T b K hK (old T b K hK ho)
      obtain ⟨e1, -, e3, -⟩ := hv.program_owned P h1.1
      exact ⟨p, ⟨e1.trans h1.1, e3.trans h1.2⟩, h2⟩
    · by_cases ho : (s.world P).owner = env.programId
      · obtain ⟨e1, -, e3, e4⟩ := hv.program_owned P ho
        exact h.found p ⟨ho, e3 ▸ hp.2⟩
      · have h1 := (hv.new_zero P ho hp.1).1
        have h5 : (w' P).content = _ := hp.2
        rw [h1] at h5; cases h5
    · obtain ⟨t0, h1, h2⟩ := hk K t (Or.inr ⟨P, T, b, hK⟩) ht
      exact h2.symm.trans (h.minted T b K t0 hK h1)

theorem runs_vaults (hi : env.PdaInjective) {P : Key} {s s' : Chain} {es : List Event}
    (hr : RunsWith env (fun s e => CleanEvent env s e ∧ KeepsToken env P s e) s es s') :
    Wf env s.now s.world → Vaults env s.world P → Wf env s'.now s'.world ∧ Vaults env s'.world P := by
  induction hr with
  | nil s => exact fun hw h => ⟨hw, h⟩
  | cons hv hc _ ih => exact fun hw h => ih (wf_apply hw hv hc.1) (apply_vaults hi hw hv hc.1 hc.2 h)

end Verif
