import Verif.Lemmas.Origin
import Verif.Lemmas.DemoOrderly
/-!
C78: pools and minings are what was asked for when they were created.
-/

namespace Verif

open Spec

section
variable {env : Env}

/-- C78, what InitializePool does: the first account, which held no pool, becomes an empty pool with the authorities and the
mint asked for; the vault is created at the address derived from pool and mint, as an empty token account of the deposit
authority, with the rent paid by the payer; both sign; nothing else changes. -/
theorem C78_new_pool {now : Nat} {w w' : World} {accs : List AccountInfo} {f d : Key} {ret : Option Nat}
    (hw : Wf env now w) (hs : RealSigners accs) (h : exec env now w accs (.initializePool f d) = .ok (w', ret)) :
    ∃ P T V Y A rest bump, accs = P :: T :: V :: Y :: A :: rest ∧ ret = none ∧ Y.isSigner = true ∧ A.isSigner = true ∧
      (w P.key).owner = env.programId ∧ (∀ q, ¬ PoolAt env w P.key q) ∧
      (w V.key).lamports = 0 ∧ (w V.key).len = 0 ∧ (w V.key).owner = env.systemProgram ∧
      env.findVault P.key T.key = some (V.key, bump) ∧ env.rentMin 165 ≤ (w Y.key).lamports ∧
      w' P.key = { w P.key with content := .pool {
        depositAuthority := A.key, distributeAuthority := d, fillAuthority := f, rewardMint := T.key, index := 0,
        totalShare := 0, distributionEndsAt := 0, tokensAvailable := 0, bump := bump, accountType := 1, diffs := [],
        cumulative := [] } } ∧
      w' V.key = { owner := env.tokenProgram, lamports := env.rentMin 165, len := 165, content := .token {
        mint := T.key, owner := A.key, amount := 0, frozen := false, delegate := none, delegatedAmount := 0,
        native := decide (T.key = env.nativeMint) } } ∧
      w' Y.key = { w Y.key with lamports := (w Y.key).lamports - env.rentMin 165 } ∧
      ∀ k, k ≠ P.key → k ≠ V.key → k ≠ Y.key → w' k = w k := by
  have hstep := step_of_exec hw hs (by exact trivial) h
  cases hstep with
  | stake _ op => exact op.elim
  | @initPool f d P T V Y A R K S rest bump accs_eq signedY signedA owned len fresh notPda vault pool' vaultBefore
      vault' payer payer' frame =>
    refine ⟨P, T, V, Y, A, R :: K :: S :: rest, bump, accs_eq, rfl, signedY, signedA, owned, ?_, vaultBefore.1, vaultBefore.2.1,
      vaultBefore.2.2, vault, payer.2.2, pool', vault', payer', frame⟩
    intro q hq
    rcases fresh with h1 | ⟨m, h1, -⟩ <;> (rw [hq.2] at h1; cases h1)

/-- C78, the origin of pools: whatever has happened, every pool was created by an InitializePool that its deposit authority
signed, with the fill authority, the distribute authority and the mint that the pool has now. -/
theorem C78_pool_origin {s0 s : Chain} {es : List Event} (hg : Genesis env s0) (hr : RunsWith env (CleanEvent env) s0 es s)
    {k : Key} {p : Pool} (hp : PoolAt env s.world k p) :
    ∃ s1 rest P T V Y A more, Happens env s0 es s1 (P :: T :: V :: Y :: A :: more)
      (.initializePool p.fillAuthority p.distributeAuthority) rest ∧
      P.key = k ∧ T.key = p.rewardMint ∧ A.key = p.depositAuthority ∧ A.isSigner = true := by
  rcases pool_origin hr (wf_genesis hg) hp with ⟨q, h, -⟩ | h
  · have := (hg.owned k h.1).1
    rw [h.2] at this; cases this
  · exact h

/-- C78, the origin of minings: whatever has happened, every mining was created by an InitializeMining for its owner and its
pool, at its address, that a payer signed, and it has not been closed since. -/
theorem C78_mining_origin {s0 s : Chain} {es : List Event} (hg : Genesis env s0)
    (hr : RunsWith env (CleanEvent env) s0 es s) {k : Key} {m : Mining} (hm : MiningAt env s.world k m)
    (hi : m.accountType = 2) :
    ∃ s1 rest P M Y more, Happens env s0 es s1 (P :: M :: Y :: more) (.initializeMining m.owner) rest ∧
      P.key = m.rewardPool ∧ M.key = k ∧ Y.isSigner = true ∧
      NeverClosed env (s1.apply env (.ix (P :: M :: Y :: more) (.initializeMining m.owner))) rest k := by
  rcases mining_origin hr (wf_genesis hg) hm hi with ⟨⟨q, h, -⟩, -⟩ | h
  · have := (hg.owned k h.1).1
    rw [h.2] at this; cases this
  · exact h

end

/-! ## Examples -/

section Examples
open Demo

/-- The hypotheses are met by the demo: a pool and two minings at the end of the story, and a creation that succeeds. -/
example : Genesis Demo.env s0 ∧ RunsWith Demo.env (CleanEvent Demo.env) s0 story afterStory ∧
    (∃ p, PoolAt Demo.env afterStory.world 100 p) ∧
    (∃ m, MiningAt Demo.env afterStory.world (mine 120 100) m ∧ m.accountType = 2) ∧
    okEvent s0 (initPool 100) = true := by
  refine ⟨s0_genesis, run_sound story_eq, ?_, ?_, by decide +kernel⟩
  · obtain ⟨p, hp, -⟩ := hasPool_sound (show hasPool afterStory.world 100 (fun _ => true) = true by decide +kernel)
    exact ⟨p, hp⟩
  · obtain ⟨m, hm, h⟩ := hasMining_sound
      (show hasMining afterStory.world (mine 120 100) (fun m => decide (m.accountType = 2)) = true by decide +kernel)
    exact ⟨m, hm, of_decide_eq_true h⟩

/-- A mining that is closed and created again has its origin in the second creation. -/
example : (run s0 (story ++ [claim 100 120 130, close 100 120, .gc (mine 120 100), initMining 100 120])).isSome = true := by
  decide +kernel

end Examples

end Verif
