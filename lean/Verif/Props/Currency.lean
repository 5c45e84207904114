import Verif.Lemmas.Currency
import Verif.Lemmas.DemoExec
/-!
A pool takes and pays one token, through one vault (C126).
-/

namespace Verif

open Spec

section
variable {env : Env}

/-- C126, the vault.  Whoever calls and whatever accounts they pass: a FillVault or Claim of the pool `P` succeeds only with the
mint the pool was created with and with the one vault derived from the pool and this mint, although the program does not compare
the mint account with the mint stored in the pool. -/
theorem C126_vault (hi : env.PdaInjective) {P : Key} {p : Pool} {s0 s : Chain} {es : List Event} (hg : Genesis env s0)
    (hr : RunsWith env (fun s e => CleanEvent env s e ∧ KeepsToken env P s e) s0 es s) {accs : List AccountInfo} {i : Ix}
    {w' : World} {ret : Option Nat} (hs : RealSigners accs) (hclean : NotPoolAsMining env s.world accs i)
    (h : exec env s.now s.world accs i = .ok (w', ret)) (hm : i = .claim ∨ ∃ r e, i = .fillVault r e)
    (ha : poolArg accs i = some P) (hp : PoolAt env s.world P p) :
    accs[1]?.map (·.key) = some p.rewardMint ∧
      ∃ V, accs[2]?.map (·.key) = some V ∧ env.findVault P p.rewardMint = some (V, p.bump) := by
  obtain ⟨hw, hv⟩ := runs_vaults hi hr (wf_genesis hg) (vaults_genesis hg P)
  have key : ∀ T V, env.vaultAddr P T p.bump = some V → (s.world V).owner = env.tokenProgram →
      T = p.rewardMint ∧ env.findVault P p.rewardMint = some (V, p.bump) := by
    intro T V h1 h2
    obtain ⟨q, h3, h4, -⟩ := hv.vaulted T p.bump V h1 h2
    obtain rfl := PoolAt.unique hp h3
    obtain ⟨V', h5⟩ := hv.found p hp
    have h6 := env.findVault_spec _ _ _ _ h5
    subst h4
    rw [h1] at h6
    cases h6
    exact ⟨rfl, h5⟩
  have hx := step_of_exec hw hs hclean h
  rcases hm with rfl | ⟨r, e, rfl⟩
  · cases hx with
    | stake _ op => exact op.elim
    | @claim P1 T V M O A U K rest q m1 m2 n accs_eq signedO signedA eff =>
      have a2 : poolArg accs .claim = some P1.key := by rw [accs_eq]; rfl
      obtain rfl : P1.key = P := Option.some.inj (a2.symm.trans ha)
      obtain rfl := PoolAt.unique hp eff.pool
      obtain ⟨h1, h2⟩ := key T.key V.key eff.vaultAddr eff.vaultTok
      rw [accs_eq]
      exact ⟨congrArg some h1, V.key, rfl, h2⟩
  · cases hx with
    | stake _ op => exact op.elim
    | @fill r e0 Q T W F S Kk rest q w1 accs_eq signed auth good pool vault nonzero future later endBound bound pool' w1_frame
        transfer frame neS neV shell =>
      have a2 : poolArg accs (.fillVault r e) = some Q.key := by rw [accs_eq]; rfl
      obtain rfl : Q.key = P := Option.some.inj (a2.symm.trans ha)
      obtain rfl := PoolAt.unique hp pool
      obtain ⟨t, -, ht, -⟩ := transfer.dstTok
      obtain ⟨h1, h2⟩ := key T.key W.key vault ((shell W.key).token ht).1
      rw [accs_eq]
      exact ⟨congrArg some h1, W.key, rfl, h2⟩

/-- C126, the token.  Whoever calls and whatever accounts they pass: an instruction for the pool `P` changes the balance of no
token account of another mint than the one the pool was created with.  So stakers are paid in the pool's token only. -/
theorem C126_token (hi : env.PdaInjective) {P : Key} {p : Pool} {s0 s : Chain} {es : List Event} (hg : Genesis env s0)
    (hr : RunsWith env (fun s e => CleanEvent env s e ∧ KeepsToken env P s e) s0 es s) {accs : List AccountInfo} {i : Ix}
    {w' : World} {ret : Option Nat} (hs : RealSigners accs) (hclean : NotPoolAsMining env s.world accs i)
    (h : exec env s.now s.world accs i = .ok (w', ret)) (ha : poolArg accs i = some P) (hp : PoolAt env s.world P p)
    {k : Key} {t : TokenAcc} (ht : TokenAt env s.world k t) (hb : balance w' k ≠ balance s.world k) :
    t.mint = p.rewardMint := by
  obtain ⟨hw, hv⟩ := runs_vaults hi hr (wf_genesis hg) (vaults_genesis hg P)
  have hx := step_of_exec hw hs hclean h
  have same : w' k = s.world k → False := fun e => hb (balance_congr (by rw [e]))
  have shut : Shell env (s.world k) (w' k) → False := by
    rintro ⟨-, -, -, h2 | ⟨h3, -⟩⟩
    · exact hb (balance_congr h2)
    · exact env.program_ne_token (h3.symm.trans ht.1)
  have moved : ∀ {w1 : World} {S V A n}, TransferEffect env w1 w' S V A n → w1 k = s.world k →
      (∃ T b, env.vaultAddr P T b = some S ∧ T = p.rewardMint ∧ w1 S = s.world S) ∨
        (∃ T b, env.vaultAddr P T b = some V ∧ T = p.rewardMint ∧ w1 V = s.world V) →
      t.mint = p.rewardMint := by
    intro w1 S V A n h1 h2 h3
    obtain ⟨a, a', ha, -⟩ := h1.srcTok
    obtain ⟨b, b', hb', -⟩ := h1.dstTok
    have hab := h1.sameMint a b ha hb'
    have hS : a.mint = p.rewardMint := by
      rcases h3 with ⟨T, x, h4, h5, h6⟩ | ⟨T, x, h4, h5, h6⟩
      · rw [← h5]; exact hv.minted T x S a h4 ((tokenAt_congr h6).mp ha)
      · rw [hab, ← h5]; exact hv.minted T x V b h4 ((tokenAt_congr h6).mp hb')
    by_cases e1 : k = S
    · obtain rfl := TokenAt.unique ((tokenAt_congr h2).mpr ht) (e1 ▸ ha)
      exact hS
    by_cases e2 : k = V
    · obtain rfl := TokenAt.unique ((tokenAt_congr h2).mpr ht) (e2 ▸ hb')
      exact hab.symm.trans hS
    · exact (same ((h1.frame k e1 e2).trans h2)).elim
  have hvault : i = .claim ∨ (∃ r e, i = .fillVault r e) → _ := fun hm => C126_vault hi hg hr hs hclean h hm ha hp
  cases hx with
  | stake accs_eq op chk del quiet same sfo ok' sameDel eff shell => exact (shut (shell k)).elim
  | redelegate accs_eq signed op chk newDel oldOk oldAt ne quiet same sfo ok' sameNew sameOld neP eff shell =>
    exact (shut (shell k)).elim
  | decrease accs_eq chk pool op mining mining' same ok' sfo frame shell => exact (shut (shell k)).elim
  | distribute accs_eq signed auth good pool pool' amount op same ok' frame shell => exact (shut (shell k)).elim
  | @claim P1 T V M O A U K rest q m1 m2 n accs_eq signedO signedA eff =>
    have a2 : poolArg accs .claim = some P1.key := by rw [accs_eq]; rfl
    obtain rfl : P1.key = P := Option.some.inj (a2.symm.trans ha)
    obtain rfl := PoolAt.unique hp eff.pool
    have e1 : k ≠ M.key := by rintro rfl; have := ht.2; rw [eff.mining.2] at this; cases this
    by_cases hn : n = 0
    · exact (same (eff.zero hn k e1)).elim
    · obtain ⟨w1, h1, h2⟩ := eff.transfer (Nat.pos_of_ne_zero hn)
      have hT := (hvault (Or.inl rfl)).1
      rw [accs_eq] at hT
      exact moved h2 (h1 k e1) (Or.inl ⟨_, _, eff.vaultAddr, Option.some.inj hT, h1 _ eff.vaultNe⟩)
  | @fill r e0 Q T W F S Kk rest q w1 accs_eq signed auth good pool vault nonzero future later endBound bound pool' w1_frame
      transfer frame neS neV shell =>
    have a2 : poolArg accs (.fillVault r e0) = some Q.key := by rw [accs_eq]; rfl
    obtain rfl : Q.key = P := Option.some.inj (a2.symm.trans ha)
    obtain rfl := PoolAt.unique hp pool
    have e1 : k ≠ Q.key := by rintro rfl; have := ht.2; rw [pool.2] at this; cases this
    have hT := (hvault (Or.inr ⟨_, _, rfl⟩)).1
    rw [accs_eq] at hT
    exact moved transfer (w1_frame k e1) (Or.inr ⟨_, _, vault, Option.some.inj hT, w1_frame _ neV⟩)
  | @close M O G A Q rest q m m1 accs_eq signedO signedA good pool auth mining init miningOk owner refreshed sfo paid target
      closed credited frame ne neG =>
    have e1 : k ≠ M.key := by rintro rfl; have := ht.2; rw [mining.2] at this; cases this
    have e2 : k ≠ G.key := by rintro rfl; exact env.token_ne_system (ht.1.symm.trans target)
    exact (same (frame k e1 e2)).elim
  | @initPool f d Q T W Y A R Kk S rest bump accs_eq signedY signedA owned len fresh notPda vault pool' vaultBefore vault'
      payer payer' frame neVP neYP neYV =>
    have e1 : k ≠ Q.key := by rintro rfl; exact env.program_ne_token (owned.symm.trans ht.1)
    have e2 : k ≠ W.key := by rintro rfl; exact env.token_ne_system (ht.1.symm.trans vaultBefore.2.2)
    have e3 : k ≠ Y.key := by rintro rfl; exact env.token_ne_system (ht.1.symm.trans payer.2.1)
    exact (same (frame k e1 e2 e3)).elim
  | @initMining o Q M Y S rest bump accs_eq signedY owned addr before mining' payer payer' frame ne neP =>
    have e2 : k ≠ M.key := by rintro rfl; exact env.token_ne_system (ht.1.symm.trans before.2.2)
    have e3 : k ≠ Y.key := by rintro rfl; exact env.token_ne_system (ht.1.symm.trans payer.2.1)
    exact (same (frame k e2 e3)).elim

end

/-! ### Concrete cases -/

section Examples
open Demo

theorem run_keepsToken {P : Key} {s s' : Chain} {es : List Event} (h : run s es = some s') (hg : Event.gc P ∉ es) :
    RunsWith Demo.env (fun s e => CleanEvent Demo.env s e ∧ KeepsToken Demo.env P s e) s es s' := by
  induction es generalizing s with
  | nil => simp only [run, Option.some.injEq] at h; subst h; exact .nil _
  | cons e es ih =>
    simp only [run] at h
    split at h
    · rename_i he
      obtain ⟨h1, h2⟩ := okEvent_sound he
      refine .cons h1 ⟨h2, ?_⟩ (ih h fun hm => hg (List.mem_cons_of_mem _ hm))
      cases e with
      | gc k => rintro rfl; exact hg List.mem_cons_self
      | ext w => simp [okEvent] at he
      | _ => trivial
    · cases h

/-- `C126_vault` and `C126_token` are about the claim of the first staker after the story, which changes a balance. -/
example : ∃ p w', RunsWith Demo.env (fun s e => CleanEvent Demo.env s e ∧ KeepsToken Demo.env 100 s e) s0 story afterStory ∧
    PoolAt Demo.env afterStory.world 100 p ∧
    Succeeds afterStory [R 100, R 101, W (vaultOf 100 101), W (mine 120 100), S 120, S 110, W 130, R 2] .claim w' ∧
    balance (afterStory.apply Demo.env (claim 100 120 130)).world 130 ≠ balance afterStory.world 130 := by
  obtain ⟨p, hp, -⟩ := hasPool_sound (show hasPool afterStory.world 100 (fun _ => true) = true by decide +kernel)
  obtain ⟨w', hx⟩ := succeeds afterStory_reachable (show okEvent afterStory (claim 100 120 130) = true by decide +kernel)
  exact ⟨p, w', run_keepsToken story_eq (by simp [story, initPool, fill, initMining, deposit, distribute]), hp, hx,
    by decide +kernel⟩

end Examples

end Verif
