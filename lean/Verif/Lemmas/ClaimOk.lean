import Verif.Lemmas.Solvency
/-!
When a claim succeeds.
-/

namespace Verif

open Spec

variable {env : Env}

theorem reachable_of_runs {C : Chain → Event → Prop} (hC : ∀ s e, C s e → CleanEvent env s e) {s0 s : Chain}
    {es : List Event} (hg : Genesis env s0) (hr : RunsWith env C s0 es s) : Reachable env s := by
  refine ⟨s0, es, hg, ?_⟩
  clear hg
  induction hr with
  | nil => exact .nil _
  | cons hv hc _ ih => exact .cons hv (hC _ _ hc) ih

theorem orderly_pool_ne_zero {P V : Key} {s0 s : Chain} {es : List Event} (hg : Genesis env s0)
    (hr : RunsWith env (Orderly env P V) s0 es s) {p : Pool} (hp : PoolAt env s.world P p) : P ≠ 0 :=
  (reachable_wf (reachable_of_runs (fun _ _ h => h.clean) hg hr) P).nonzero hp.1

theorem splTransfer_succeeds {w : World} {src dst auth : AccountInfo} {n : Nat} {t u : TokenAcc}
    (h1 : auth.isSigner = true) (h2 : src.isWritable = true) (h3 : dst.isWritable = true)
    (ht : TokenAt env w src.key t) (hu : TokenAt env w dst.key u) (f1 : t.frozen = false) (f2 : u.frozen = false)
    (hn : n ≤ t.amount) (hm : t.mint = u.mint) (ho : t.owner = auth.key) (hd : t.delegate ≠ some auth.key)
    (hr : t.amount + u.amount < 2 ^ 64) (hnat : t.native = false) (hl : (w dst.key).lamports < 2 ^ 64)
    (hs : ¬ ((w auth.key).owner = env.tokenProgram ∧ (w auth.key).len = 355)) :
    ∃ w', splTransfer env w src dst auth n = .ok w' := by
  have e1 : tokenOf env (w src.key) = .ok t := tokenOf_ok.mpr ht
  have e2 : tokenOf env (w dst.key) = .ok u := tokenOf_ok.mpr hu
  have e3 : transferAuth t auth.key n = .ok t := by unfold transferAuth; rw [if_neg hd, if_pos ho]
  by_cases e : src.key = dst.key
  · refine ⟨w, ?_⟩
    unfold splTransfer
    simp only [res_bind_ok, ensure_ok]
    exact ⟨(), ⟨h1, h2, h3⟩, t, e1, u, e2, (), ⟨f1, f2⟩, (), hn, (), hm, (), hs, t, e3, by rw [if_pos e]; rfl⟩
  · apply Exists.intro
    unfold splTransfer
    simp only [res_bind_ok, ensure_ok]
    refine ⟨(), ⟨h1, h2, h3⟩, t, e1, u, e2, (), ⟨f1, f2⟩, (), hn, (), hm, (), hs, t, e3, ?_⟩
    rw [if_neg e]
    simp only [res_bind_ok, ensure_ok]
    refine ⟨(), by unfold U64; omega, (), ?_, res_pure_ok.mpr rfl⟩
    rw [hnat]
    refine ⟨Nat.zero_le _, ?_⟩
    unfold U64; simpa using hl

theorem claim_succeeds {now : Nat} {w : World} (hw : Wf env now w) {accs : List AccountInfo}
    {P T V M O A U K : AccountInfo} {rest : List AccountInfo} {p : Pool} {m m1 : Mining} {t u : TokenAcc}
    (hr : ClaimReady env w accs P T V M O A U K rest p m t u) (hm1 : m.refreshRewards now p.cumulative = .ok m1)
    (hn : m1.unclaimed ≤ t.amount) : ∃ w', exec env now w accs .claim = .ok (w', some m1.unclaimed) := by
  obtain ⟨f1, f2, f3, f4, f5, f6, f7, f8⟩ := hr.usable
  have hacc := hr.accs_eq
  have wV : V.isWritable = true := hr.writable V (by rw [hacc]; simp) (Or.inl rfl)
  have wM : M.isWritable = true := hr.writable M (by rw [hacc]; simp) (Or.inr (Or.inl rfl))
  have wU : U.isWritable = true := hr.writable U (by rw [hacc]; simp) (Or.inr (Or.inr rfl))
  have gp := poolAt_good hw hr.pool
  have hMP : M.key ≠ P.key := by
    intro e; have := hr.mining.1; rw [e] at this; exact PoolAt.not_mining hr.pool this
  have hMV : M.key ≠ V.key := by
    intro e; exact env.program_ne_token ((hr.mining.1.1.symm.trans (by rw [e])).trans hr.vault.2.1)
  have hMU : M.key ≠ U.key := by
    intro e; exact env.program_ne_token ((hr.mining.1.1.symm.trans (by rw [e])).trans hr.receiver.1.1)
  have hlen : MINING_LEN ≤ (w M.key).len := by
    rcases (miningAt_ok hw hr.mining.1).2 with h | h
    · exact Nat.le_of_eq h.len.symm
    · exact absurd (hr.mining.2.symm.trans h.pool) ((hw P.key).nonzero hr.pool.1)
  have hput : ∀ k, k ≠ M.key → putMining env w M.key m1.claim k = w k := fun k hk => putMining_ne w _ hk
  have hlast : ∃ w', (if m1.unclaimed > 0 then splTransfer env (putMining env w M.key m1.claim) V U A m1.unclaimed
      else pure (putMining env w M.key m1.claim)) = .ok w' := by
    split
    · refine splTransfer_succeeds (t := t) (u := u) hr.authority.2 wV wU ?_ ?_ f1 f2 hn f4 f5 f6 f7 f3 ?_ ?_
      · unfold TokenAt; rw [hput _ (Ne.symm hMV)]; exact hr.vault.2
      · unfold TokenAt; rw [hput _ (Ne.symm hMU)]; exact hr.receiver.1
      · rw [hput _ (Ne.symm hMU)]; exact f8
      · intro h
        by_cases e : A.key = M.key
        · rw [e] at h
          exact env.program_ne_token ((putMining_at hr.mining.1 _).1.symm.trans h.1)
        · rw [hput _ e] at h; exact hr.single h
    · exact ⟨_, rfl⟩
  obtain ⟨w', hlast⟩ := hlast
  have hfin : (if m1.unclaimed > 0 then do
      let w ← splTransfer env (putMining env w M.key m1.claim) V U A m1.unclaimed
      pure (w, m1.unclaimed) else do
      let w ← pure (putMining env w M.key m1.claim)
      pure (w, m1.unclaimed)) = (.ok (w', m1.unclaimed) : Res (World × Nat)) := by
    split at hlast
    · rename_i hp; rw [if_pos hp, hlast]; rfl
    · rename_i hp; rw [if_neg hp]; cases hlast; rfl
  have hproc : processClaim env now w accs = .ok (w', m1.unclaimed) := by
    subst hacc
    unfold processClaim
    simp only [res_bind_ok, nextWithOwner_ok, nextSigner_ok, nextWithKey_ok, ensure_ok, okOr_ok, unpackToken_ok,
      assertKey_ok, loadPool_ok, loadMining_ok, Prod.exists]
    exact ⟨P, _, ⟨rfl, hr.pool.1⟩, T, _, ⟨rfl, hr.mint.2⟩, V, _, ⟨rfl, hr.vault.2.1⟩, M, _, ⟨rfl, hr.mining.1.1⟩,
      O, _, ⟨rfl, hr.owner.2⟩, A, _, ⟨rfl, hr.authority.2⟩, U, _, ⟨rfl, hr.receiver.1.1⟩, K, rest, ⟨rfl, hr.program⟩,
      u, hr.receiver.1.2, (), hr.receiver.2.symm, p, ⟨Nat.le_of_eq gp.len.symm, by rw [hr.pool.2]; rfl⟩, (),
      hr.authority.1, (), hMP, m, ⟨hlen, by rw [hr.mining.1.2]; rfl⟩, (), hr.owner.1, (), hr.mining.2.symm, V.key,
      env.findVault_spec _ _ _ _ hr.vault.1, (), rfl, m1, hm1, hfin⟩
  refine ⟨w', exec_ok.mpr ⟨?_, ?_⟩⟩
  · simp only [process, res_bind_ok, res_pure_ok, Prod.mk.injEq, Prod.exists]
    exact ⟨w', _, hproc, rfl, rfl⟩
  · intro a ha hro
    have hk : a.key ≠ V.key ∧ a.key ≠ M.key ∧ a.key ≠ U.key := by
      refine ⟨fun e => ?_, fun e => ?_, fun e => ?_⟩
      · have := hr.writable a ha (Or.inl e); rw [hro] at this; cases this
      · have := hr.writable a ha (Or.inr (Or.inl e)); rw [hro] at this; cases this
      · have := hr.writable a ha (Or.inr (Or.inr e)); rw [hro] at this; cases this
    obtain ⟨k1, k2, k3⟩ := hk
    split at hlast
    · obtain ⟨s, d, s', -, -, -, -, -, -, -, -, -, -, -, -, h⟩ := splTransfer_ok hlast
      rcases h with ⟨-, rfl⟩ | ⟨-, -, mv, -, -, -, rfl⟩
      · exact hput _ k2
      · rw [world_set_ne _ _ k3, world_set_ne _ _ k1]; exact hput _ k2
    · cases hlast; exact hput _ k2

end Verif
