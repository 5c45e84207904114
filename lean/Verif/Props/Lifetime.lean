import Verif.Lemmas.Lifetime
import Verif.Props.Payout
import Verif.Props.Distribution
/-!
C66: a pool can reward its stakers for at most as many days as its index history has entries (1095).
-/

namespace Verif

open Spec

section
variable {env : Env}

/-- C66: no pool ever has more recorded distributions than the history has entries. -/
theorem C66_at_most {s : Chain} (hr : Reachable env s) {P : Key} {p : Pool} (hp : PoolAt env s.world P p) :
    p.cumulative.length ≤ env.caps.index := history_length hr hp

/-- C66: once the history is full, it is the same for ever, whatever is done, and no mining, whatever its data, is ever
owed anything because of a later distribution.  The budget and the vault can still be filled and the budget be
distributed (`C11_budget_history`). -/
theorem C66_frozen {s s' : Chain} {es : List Event} (hw : Wf env s.now s.world) (hr : CleanRun env s es s') {P : Key}
    {p : Pool} (hp : PoolAt env s.world P p) (hl : 0 < (s.world P).lamports)
    (hfull : p.cumulative.length = env.caps.index) :
    ∃ p', PoolAt env s'.world P p' ∧ p'.cumulative = p.cumulative ∧
      p'.tokensAvailable + totalIn env (distributedBy env P) s es =
        p.tokensAvailable + totalIn env (filledBy env P) s es ∧
      ∀ m, owed m p'.cumulative = owed m p.cumulative := by
  obtain ⟨p', h1, h2⟩ := C11_budget_history hw hr hp hl
  have h3 := full_runs hw hr hp hl (Nat.le_of_eq hfull.symm) h1
  exact ⟨p', h1, h3, h2, fun m => by rw [h3]⟩

/-- C66, what is left to pay: if the minings of an orderly run pool together were owed at most `B` (in 1/10^16 token) when
its history became full, then everything it pays out afterwards, and everything it still owes then, is at most `B`,
however much is filled and distributed in the meantime. -/
theorem C66_nothing_more (hi : env.PdaInjective) {P V : Key} {s0 s1 s : Chain} {es0 es : List Event} (hg : Genesis env s0)
    (h0 : RunsWith env (fun s e => Orderly env P V s e ∧ Sealed V s e) s0 es0 s1)
    (hr : RunsWith env (fun s e => Orderly env P V s e ∧ Sealed V s e) s1 es s) (hn : s.now < 2 ^ 64) {p p' : Pool}
    (hp : PoolAt env s1.world P p) (hV : env.findVault P p.rewardMint = some (V, p.bump))
    (hl : 0 < (s1.world P).lamports) (hfull : p.cumulative.length = env.caps.index) (hp' : PoolAt env s.world P p') {B : Nat}
    (hB : ∀ ks : List Key, ks.Nodup → owedTotal env s1.world P p.cumulative ks ≤ B) {ks : List Key} (hk : ks.Nodup) :
    10 ^ 16 * totalIn env (paidBy env P) s1 es + owedTotal env s.world P p'.cumulative ks ≤ B := by
  have h0' := h0.weaken fun _ _ h => h.1
  have hr' := hr.weaken fun _ _ h => h.1
  have hP0 : P ≠ 0 := orderly_pool_ne_zero hg h0' hp
  have hn1 : s1.now < 2 ^ 64 := Nat.lt_of_le_of_lt (run_now_le hr) hn
  obtain ⟨-, hw, -, -⟩ := runs_solvent hi hP0 hg h0' hn1
  have hcum := full_runs hw (hr'.weaken fun _ _ h => h.clean) hp hl (Nat.le_of_eq hfull.symm) hp'
  have hsame : SamePool p p' := by
    obtain ⟨q, k1, -, k2⟩ := runs_pool hw (hr'.weaken fun _ _ h => h.clean) hp hl (fun _ q => SamePool p q)
      ⟨rfl, rfl, rfl, rfl, rfl, rfl⟩ (by
      rintro s e q q' - - - i1 hev
      exact i1.trans hev.same_pool)
    rw [PoolAt.unique hp' k1]; exact k2
  have hV' : env.findVault P p'.rewardMint = some (V, p'.bump) := by rw [hsame.rewardMint, hsame.bump]; exact hV
  have hd := runs_drained hi hP0 hg h0' hr' hn hp hV hl (Nat.le_of_eq hfull.symm) hp' (B := B)
    (fun S hS => by have := hB S hS; unfold owedTotal at this; omega)
  obtain ⟨a1, a2⟩ := (runs_accounts hi hP0 hg h0 hn1).some p hp hV
  obtain ⟨b1, b2⟩ := (runs_accounts hi hP0 hg (h0.append hr) hn).some p' hp' hV'
  have tot : ∀ f, totalIn env f s0 (es0 ++ es) = totalIn env f s0 es0 + totalIn env f s1 es := by
    intro f
    clear hp hV hl hfull hp' hB hcum hsame hV' hd a1 a2 b1 b2 hw h0' hr' hr hg
    induction h0 with
    | nil => simp [totalIn]
    | cons _ _ _ ih => simp only [List.cons_append, totalIn]; rw [ih hn1]; omega
  rw [tot, tot] at b1 b2
  have := hd ks hk
  unfold owedTotal
  rw [hcum]
  omega

end

section Examples
open Demo

theorem longRuns {n : Nat} (hn : n ≤ 1094) : ∃ s c, Long (n + 1) s c ∧
    RunsWith Demo.env (fun s e => Orderly Demo.env 100 (vaultOf 100 101) s e ∧ Sealed (vaultOf 100 101) s e) s0
      (longEvents n) s := by
  induction n with
  | zero =>
    obtain ⟨c, h⟩ := long_start
    exact ⟨_, c, h, sealedB_sound longBase_runs (by decide +kernel)⟩
  | succ n ih =>
    obtain ⟨s, c, h1, h2⟩ := ih (by omega)
    obtain ⟨c', h3⟩ := long_next h1 (by omega)
    exact ⟨_, c', h3, h2.append (.cons trivial ⟨trivial, trivial⟩ (.cons (dist_valid _) (distribute_orderly _) (.nil _)))⟩

/-- A pool that is run in an orderly way for three years and then has a full history; a later distribution takes two tokens
from the budget, which nobody gets. -/
example : ∃ s1 s p p', Genesis Demo.env s0 ∧
    RunsWith Demo.env (fun s e => Orderly Demo.env 100 (vaultOf 100 101) s e ∧ Sealed (vaultOf 100 101) s e) s0
      (longEvents 1094) s1 ∧
    RunsWith Demo.env (fun s e => Orderly Demo.env 100 (vaultOf 100 101) s e ∧ Sealed (vaultOf 100 101) s e) s1
      [.tick (599 * 86400), distribute 100] s ∧ s.now < 2 ^ 64 ∧ PoolAt Demo.env s1.world 100 p ∧
    Demo.env.findVault 100 p.rewardMint = some (vaultOf 100 101, p.bump) ∧ 0 < (s1.world 100).lamports ∧
    p.cumulative.length = Demo.env.caps.index ∧ PoolAt Demo.env s.world 100 p' ∧
    p.tokensAvailable = 1000 ∧ p'.tokensAvailable = 998 := by
  obtain ⟨s1, c, h1, h2⟩ := longRuns (n := 1094) (Nat.le_refl _)
  obtain ⟨w1, w2, k1, k2, k3, -⟩ := long_again h1
  have happ := apply_ix_ok k2
  refine ⟨s1, _, _, pF 20000000000000 998 c, s0_genesis, h2,
    .cons trivial ⟨trivial, trivial⟩ (.cons (dist_valid _) (distribute_orderly _) (.nil _)), ?_, h1.pool, ?_, ?_, ?_, ?_,
    rfl, rfl⟩
  · show ((s1.apply Demo.env (.tick (599 * 86400))).apply Demo.env (.ix _ _)).now < _
    rw [happ]
    show s1.now + _ < _
    rw [h1.now]; decide
  · show Demo.env.findVault 100 101 = some (vaultOf 100 101, 255)
    decide +kernel
  · rw [h1.size.2]; decide
  · exact h1.len
  · show PoolAt Demo.env ((s1.apply Demo.env (.tick (599 * 86400))).apply Demo.env (.ix _ _)).world _ _
    rw [happ]; exact k3

end Examples

end Verif
