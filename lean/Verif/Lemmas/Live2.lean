import Verif.Lemmas.Live
/-!
When filling the vault, closing a mining and creating pools and minings succeed.
-/

namespace Verif

open Spec

variable {env : Env}

theorem fill_succeeds {now : Nat} {w : World} (hw : Wf env now w) {accs : List AccountInfo}
    {P T V F S K : AccountInfo} {rest : List AccountInfo} {p : Pool} {t u : TokenAcc} {r e : Nat}
    (hr : FillReady env w accs P T V F S K rest p t u) (h0 : 0 < r) (hn : r ≤ t.amount) (he : e < 2 ^ 64)
    (h1 : midnight now ≤ midnight e) (h2 : p.distributionEndsAt ≤ midnight e) (h3 : p.tokensAvailable + r < 2 ^ 64) :
    ∃ w', exec env now w accs (.fillVault r e) = .ok (w', none) := by
  obtain ⟨f1, f2, f3, f4, f5, f6⟩ := hr.usable
  have hacc := hr.accs_eq
  have wP : P.isWritable = true := hr.writable P (by rw [hacc]; simp) (Or.inl rfl)
  have wV : V.isWritable = true := hr.writable V (by rw [hacc]; simp) (Or.inr (Or.inl rfl))
  have wS : S.isWritable = true := hr.writable S (by rw [hacc]; simp) (Or.inr (Or.inr rfl))
  have gp := poolAt_good hw hr.pool
  have hVP : V.key ≠ P.key := by
    intro e; exact env.program_ne_token ((hr.pool.1.symm.trans (by rw [e])).trans hr.vault.2.1)
  have hSP : S.key ≠ P.key := by
    intro e; exact env.program_ne_token ((hr.pool.1.symm.trans (by rw [e])).trans hr.source.1.1)
  have hput : ∀ q k, k ≠ P.key → putPool w P.key q k = w k := fun q k hk => putPool_ne w _ hk
  have hm := midnight_le e
  obtain ⟨w', hlast⟩ := splTransfer_succeeds (env := env) (w := putPool w P.key { p with
      distributionEndsAt := p.distributionEndsAt + (bod e - p.distributionEndsAt)
      tokensAvailable := p.tokensAvailable + r }) (src := S) (dst := V) (auth := F) (n := r) (t := t) (u := u)
    hr.authority.2.1 wS wV (by unfold TokenAt; rw [hput _ _ hSP]; exact hr.source.1)
    (by unfold TokenAt; rw [hput _ _ hVP]; exact hr.vault.2) f1 f2 hn f4 hr.source.2.1 hr.source.2.2 f5 f3
    (by rw [hput _ _ hVP]; exact f6) (by rw [hput _ _ hr.authority.2.2]; exact hr.single)
  have hproc : processFillVault env now w accs r e = .ok w' := by
    subst hacc
    unfold processFillVault
    simp only [res_bind_ok, nextWithOwner_ok, nextSigner_ok, nextWithKey_ok, ensure_ok, okOr_ok,
      assertKey_ok, loadPool_ok, safeSub_ok, safeAdd64_ok, Prod.exists]
    rw [bod_eq_midnight, bod_eq_midnight] at *
    exact ⟨P, _, ⟨rfl, hr.pool.1⟩, T, _, ⟨rfl, hr.mint.2⟩, V, _, ⟨rfl, hr.vault.2.1⟩, F, _, ⟨rfl, hr.authority.2.1⟩,
      S, _, ⟨rfl, hr.source.1.1⟩, K, rest, ⟨rfl, hr.program⟩, (), by omega, p,
      ⟨Nat.le_of_eq gp.len.symm, by rw [hr.pool.2]; rfl⟩, (), hr.authority.1, V.key,
      env.findVault_spec _ _ _ _ hr.vault.1, (), rfl, (), by omega, _, ⟨h2, rfl⟩, _, ⟨by unfold U64; omega, rfl⟩, _,
      ⟨by unfold U64; omega, rfl⟩, (), ⟨hSP, hVP, hr.authority.2.2⟩, hlast⟩
  refine ⟨w', exec_ok.mpr ⟨?_, ?_⟩⟩
  · simp only [process, res_bind_ok, res_pure_ok, Prod.mk.injEq]
    exact ⟨w', hproc, rfl, trivial⟩
  · intro a ha hro
    have hk : a.key ≠ P.key ∧ a.key ≠ V.key ∧ a.key ≠ S.key := by
      refine ⟨fun e => ?_, fun e => ?_, fun e => ?_⟩
      · have := hr.writable a ha (Or.inl e); rw [hro] at this; cases this
      · have := hr.writable a ha (Or.inr (Or.inl e)); rw [hro] at this; cases this
      · have := hr.writable a ha (Or.inr (Or.inr e)); rw [hro] at this; cases this
    obtain ⟨k1, k2, k3⟩ := hk
    obtain ⟨s, d, s', -, -, -, -, -, -, -, -, -, -, -, -, h⟩ := splTransfer_ok hlast
    rcases h with ⟨-, rfl⟩ | ⟨-, -, mv, -, -, -, rfl⟩
    · exact hput _ _ k1
    · rw [world_set_ne _ _ k2, world_set_ne _ _ k3]; exact hput _ _ k1

/-- Bringing up to date a mining that is up to date changes nothing. -/
theorem refresh_fixed {cum : SMap} (hc : History cum) {now : Nat} {m : Mining} (hm : MiningOk m)
    (hi : m.index = indexBefore cum now) (hd : ∀ x ∈ m.diffs, midnight now < x.1)
    (hU : m.share + m.stakeFromOthers < 2 ^ 64) : m.refreshRewards now cum = .ok m := by
  refine (refresh_iff hc hm.sorted).mpr ⟨by unfold U64; omega, m.share + m.stakeFromOthers, m.unclaimed, ?_,
    Nat.le_add_left _ _, ?_⟩
  · have hu : Upd cum now (m.share + m.stakeFromOthers) m.unclaimed m.index m.unclaimed := by
      unfold Upd
      rw [hi, Nat.sub_self, Nat.zero_mul, Nat.zero_div]
      exact ⟨Nat.le_refl _, by decide, by decide, by omega, rfl⟩
    cases hD : m.diffs with
    | nil => exact ⟨hu, rfl⟩
    | cons x rest =>
      obtain ⟨e, v⟩ := x
      have := hd (e, v) (by rw [hD]; simp)
      rw [RunOk, if_pos (by rw [bod_eq_midnight]; exact this)]
      exact ⟨hu, rfl⟩
  · have : after m.diffs (bod now) = m.diffs := by
      unfold after
      rw [bod_eq_midnight]
      exact List.filter_eq_self.mpr fun x hx => by simpa using hd x hx
    rw [this, ← hi]
    simp

theorem close_exec {now : Nat} {w : World} (hw : Wf env now w) {accs : List AccountInfo}
    {M O G A P : AccountInfo} {rest : List AccountInfo} {p : Pool} {m m1 : Mining}
    (hr : CloseReady env w accs M O G A P rest p m) (h1 : m.refreshRewards now p.cumulative = .ok m1)
    (h2 : m1.stakeFromOthers = 0) (h3 : m1.unclaimed = 0) :
    ∃ w', exec env now w accs .closeMining = .ok (w', none) := by
  have hacc := hr.accs_eq
  have gp := poolAt_good hw hr.pool
  have hMP : M.key ≠ P.key := by
    intro e; have := hr.mining.1; rw [e] at this; exact PoolAt.not_mining hr.pool this
  have hlen : MINING_LEN ≤ (w M.key).len := by
    rcases (miningAt_ok hw hr.mining.1).2 with h | h
    · exact Nat.le_of_eq h.len.symm
    · exact absurd (hr.mining.2.symm.trans h.pool) ((hw P.key).nonzero hr.pool.1)
  have hproc : ∃ w', processCloseMining env now w accs = .ok w' ∧ ∀ k, k ≠ M.key → k ≠ G.key → w' k = w k := by
    subst hacc
    apply Exists.intro
    refine ⟨?_, ?_⟩
    · unfold processCloseMining
      simp only [res_bind_ok, nextWithOwner_ok, nextSigner_ok, ensure_ok, safeAdd64_ok,
        assertKey_ok, loadPool_ok, loadMining_ok, res_pure_ok, Prod.exists]
      exact ⟨M, _, ⟨rfl, hr.mining.1.1⟩, O, _, ⟨rfl, hr.owner.2⟩, G, _, ⟨rfl, hr.target.1⟩, A, _, ⟨rfl, hr.authority.2⟩,
        P, rest, ⟨rfl, hr.pool.1⟩, p, ⟨Nat.le_of_eq gp.len.symm, by rw [hr.pool.2]; rfl⟩, (), hr.authority.1, (), hMP, m,
        ⟨hlen, by rw [hr.mining.1.2]; rfl⟩, (), hr.owner.1, m1, h1, (), by omega, (), h3, _,
        ⟨by unfold U64; exact hr.target.2, rfl⟩, rfl⟩
    · intro k hk1 hk2
      rw [world_set_ne _ _ hk1, world_set_ne _ _ hk2]
  obtain ⟨w', hproc, hfr⟩ := hproc
  refine ⟨w', exec_ok.mpr ⟨?_, ?_⟩⟩
  · simp only [process, res_bind_ok, res_pure_ok, Prod.mk.injEq]
    exact ⟨w', hproc, rfl, trivial⟩
  · intro a ha hro
    refine hfr _ (fun e => ?_) (fun e => ?_)
    · have := hr.writable a ha (Or.inl e); rw [hro] at this; cases this
    · have := hr.writable a ha (Or.inr e); rw [hro] at this; cases this

theorem createMining_exec {now : Nat} {w : World} {accs : List AccountInfo} {P M Y K : AccountInfo}
    {rest : List AccountInfo} {p : Pool} {o : Key} {b : Nat} (hr : CreateMiningReady env w accs P M Y K rest p o b)
    (hu : Unused env w M.key) : ∃ w', exec env now w accs (.initializeMining o) = .ok (w', none) := by
  have hacc := hr.accs_eq
  have wM : M.isWritable = true := hr.writable M (by rw [hacc]; simp) (Or.inl rfl)
  have wY : Y.isWritable = true := hr.writable Y (by rw [hacc]; simp) (Or.inr rfl)
  obtain ⟨u1, u2, u3, u4⟩ := hu
  have hproc : ∃ w', processInitializeMining env w accs o = .ok w' ∧ ∀ k, k ≠ M.key → k ≠ Y.key → w' k = w k := by
    subst hacc
    apply Exists.intro
    refine ⟨?_, ?_⟩
    · unfold processInitializeMining
      simp only [res_bind_ok, nextWithOwner_ok, nextUninitialized_ok, nextSigner_ok, nextWithKey_ok, okOr_ok,
        assertKey_ok, res_pure_ok, Prod.exists, createAccount_ok]
      exact ⟨P, _, ⟨rfl, hr.pool.1⟩, M, _, ⟨rfl, by rw [u3]; rfl⟩, Y, _, ⟨rfl, hr.payer.signed⟩, K, rest,
        ⟨rfl, hr.program⟩, M.key, b, hr.mining, (), rfl, _, ⟨⟨hr.payer.signed, wY, wM⟩, hr.different, ⟨u4, u2, u1⟩,
          ⟨hr.payer.wallet.2, hr.payer.wallet.1⟩, hr.payer.funds, rfl⟩, rfl⟩
    · intro k hk1 hk2
      rw [putMining_ne _ _ hk1, world_set_ne _ _ hk1, world_set_ne _ _ hk2]
  obtain ⟨w', hproc, hfr⟩ := hproc
  refine ⟨w', exec_ok.mpr ⟨?_, ?_⟩⟩
  · simp only [process, res_bind_ok, res_pure_ok, Prod.mk.injEq]
    exact ⟨w', hproc, rfl, trivial⟩
  · intro a ha hro
    refine hfr _ (fun e => ?_) (fun e => ?_)
    · have := hr.writable a ha (Or.inl e); rw [hro] at this; cases this
    · have := hr.writable a ha (Or.inr e); rw [hro] at this; cases this

theorem createPool_exec {now : Nat} {w : World} {accs : List AccountInfo} {P T V Y A R K L : AccountInfo}
    {rest : List AccountInfo} {b : Nat} {f d : Key} (hr : CreatePoolReady env w accs P T V Y A R K L rest b)
    (hu : Unused env w V.key) : ∃ w', exec env now w accs (.initializePool f d) = .ok (w', none) := by
  have hacc := hr.accs_eq
  have wP : P.isWritable = true := hr.writable P (by rw [hacc]; simp) (Or.inl rfl)
  have wV : V.isWritable = true := hr.writable V (by rw [hacc]; simp) (Or.inr (Or.inl rfl))
  have wY : Y.isWritable = true := hr.writable Y (by rw [hacc]; simp) (Or.inr (Or.inr rfl))
  obtain ⟨u1, u2, u3, u4⟩ := hu
  have hYP : Y.key ≠ P.key := by
    intro e; exact env.program_ne_system ((hr.pool.1.symm.trans (by rw [e])).trans hr.payer.wallet.1)
  have hTP : T.key ≠ P.key := by
    intro e; exact env.program_ne_token ((hr.pool.1.symm.trans (by rw [e])).trans hr.mint.1)
  have hYT : T.key ≠ Y.key := by
    intro e; exact env.token_ne_system ((hr.mint.1.symm.trans (by rw [e])).trans hr.payer.wallet.1)
  have hproc : ∃ w', processInitializePool env w accs f d = .ok w' ∧
      ∀ k, k ≠ P.key → k ≠ V.key → k ≠ Y.key → w' k = w k := by
    subst hacc
    apply Exists.intro
    refine ⟨?_, ?_⟩
    · unfold processInitializePool
      simp only [res_bind_ok, nextWithOwner_ok, nextUninitialized_ok, nextSigner_ok, nextWithKey_ok, okOr_ok, ensure_ok,
        assertKey_ok, res_pure_ok, Prod.exists, createAccount_ok, initializeTokenAccount_ok, loadPool_ok]
      exact ⟨P, _, ⟨rfl, hr.pool.1⟩, T, _, ⟨rfl, hr.mint.1⟩, V, _, ⟨rfl, by rw [u3]; rfl⟩, Y, _, ⟨rfl, hr.payer.signed⟩,
        A, _, ⟨rfl, hr.authority.1⟩, R, _, ⟨rfl, hr.programs.1⟩, K, _, ⟨rfl, hr.programs.2.1⟩, L, rest,
        ⟨rfl, hr.programs.2.2.1⟩, (), hr.pool.2.1, Pool.zero,
        ⟨Nat.le_of_eq hr.pool.2.1.symm, by rw [hr.pool.2.2]; rfl⟩, (), by decide, V.key, b, hr.vault.1, (), rfl, (),
        ⟨hYP, hr.vault.2⟩, _, ⟨⟨hr.payer.signed, wY, wV⟩, hr.different.1, ⟨u4, u2, u1⟩,
          ⟨hr.payer.wallet.2, hr.payer.wallet.1⟩, hr.payer.funds, rfl⟩, (), ⟨hTP, hr.authority.2, hr.programs.2.2.2⟩, _,
        ⟨by simp [World.set], Or.inr (by simpa [World.set, hr.different.2, hYT] using hr.mint), rfl⟩, rfl⟩
    · intro k hk1 hk2 hk3
      rw [putPool_ne _ _ hk1, world_set_ne _ _ hk2, world_set_ne _ _ hk2, world_set_ne _ _ hk3]
  obtain ⟨w', hproc, hfr⟩ := hproc
  refine ⟨w', exec_ok.mpr ⟨?_, ?_⟩⟩
  · simp only [process, res_bind_ok, res_pure_ok, Prod.mk.injEq]
    exact ⟨w', hproc, rfl, trivial⟩
  · intro a ha hro
    refine hfr _ (fun e => ?_) (fun e => ?_) (fun e => ?_)
    · have := hr.writable a ha (Or.inl e); rw [hro] at this; cases this
    · have := hr.writable a ha (Or.inr (Or.inl e)); rw [hro] at this; cases this
    · have := hr.writable a ha (Or.inr (Or.inr e)); rw [hro] at this; cases this

end Verif
