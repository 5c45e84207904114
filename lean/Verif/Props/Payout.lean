import Verif.Lemmas.Payout
import Verif.Lemmas.DemoOrderly
/-!
C60: over a whole history, a pool never pays out more than it has distributed.
-/

namespace Verif

open Spec

section
variable {env : Env}

/-- C60 for orderly histories in which the vault's tokens are only moved by fills and claims: whatever was paid out to the
stakers of a pool, together with everything its minings are still owed (whatever list of accounts is summed over), is at
most what was distributed; and the vault holds exactly what was filled and not paid out.  Missing for the full property:
histories that are not orderly; see `C60_false_stale_delegate`. -/
theorem C60_paid_partial (hi : env.PdaInjective) {P V : Key} {s0 s : Chain} {es : List Event} (hg : Genesis env s0)
    (hr : RunsWith env (fun s e => Orderly env P V s e ∧ Sealed V s e) s0 es s) (hn : s.now < 2 ^ 64) {p : Pool}
    (hp : PoolAt env s.world P p) (hV : env.findVault P p.rewardMint = some (V, p.bump)) {ks : List Key} (hk : ks.Nodup) :
    10 ^ 16 * totalIn env (paidBy env P) s0 es + owedTotal env s.world P p.cumulative ks ≤
        10 ^ 16 * totalIn env (distributedBy env P) s0 es ∧
      balance s.world V + totalIn env (paidBy env P) s0 es = totalIn env (filledBy env P) s0 es ∧
      totalIn env (distributedBy env P) s0 es ≤ totalIn env (filledBy env P) s0 es := by
  have hr' : RunsWith env (Orderly env P V) s0 es s := hr.weaken fun _ _ h => h.1
  have hP0 : P ≠ 0 := orderly_pool_ne_zero hg hr' hp
  have h := ((runs_solvent hi hP0 hg hr' hn).2.2.2.books p hp hV).funds ks hk
  obtain ⟨h1, h2⟩ := (runs_accounts hi hP0 hg hr hn).some p hp hV
  unfold owedTotal
  omega

end

section Examples
open Demo

/-- Executable version of `Sealed` for histories without outside changes. -/
def sealedB (V : Key) (s : Chain) : List Event → Bool
  | [] => true
  | e :: es => (match e with
      | .ix accs .claim => decide (accs[6]?.map (·.key) ≠ some V)
      | .ext _ => false
      | _ => true) && sealedB V (s.apply Demo.env e) es

theorem sealedB_sound {C : Chain → Event → Prop} {V : Key} {s s' : Chain} {es : List Event}
    (h : RunsWith Demo.env C s es s') (hs : sealedB V s es = true) :
    RunsWith Demo.env (fun s e => C s e ∧ Sealed V s e) s es s' := by
  induction h with
  | nil => exact .nil _
  | @cons s s' e es hv hc _ ih =>
    simp only [sealedB, Bool.and_eq_true] at hs
    refine .cons hv ⟨hc, ?_⟩ (ih hs.2)
    cases e with
    | ix accs i =>
      rintro rfl
      simpa using hs.1
    | tick d => trivial
    | gc k => trivial
    | ext w => simp at hs

/-- The example history is orderly and leaves the vault alone; in it, claims pay out 1000 or more together. -/
example : Genesis Demo.env s0 ∧ RunsWith Demo.env (fun s e => Orderly Demo.env 100 (vaultOf 100 101) s e ∧
      Sealed (vaultOf 100 101) s e) s0 orderlyStory afterOrderly ∧ afterOrderly.now < 2 ^ 64 ∧
    hasPool afterOrderly.world 100 (fun p => decide (Demo.env.findVault 100 p.rewardMint =
      some (vaultOf 100 101, p.bump))) = true ∧
    totalIn Demo.env (filledBy Demo.env 100) s0 orderlyStory = 10000 ∧
    1000 ≤ totalIn Demo.env (paidBy Demo.env 100) s0 orderlyStory :=
  ⟨s0_genesis, sealedB_sound orderlyStory_runs (by decide +kernel), by decide +kernel, by decide +kernel,
    by decide +kernel, by decide +kernel⟩

/-- C60 fails if stake is delegated to a mining that is not up to date: here only 1111 tokens were distributed, but user 121
is paid 6666 of the 10000 in the vault. -/
def overpaid : List Event :=
  [initPool 100, initMining 100 120, initMining 100 121, deposit 100 121 1000 .flex 121,
    fill 100 10000 (day0 + 10 * DAY), distribute 100, .tick DAY, deposit 100 120 5000 .flex 121, claim 100 121 131]

theorem C60_false_stale_delegate : ∃ s, RunsWith Demo.env (CleanEvent Demo.env) s0 overpaid s ∧
    totalIn Demo.env (distributedBy Demo.env 100) s0 overpaid = 1111 ∧
    totalIn Demo.env (paidBy Demo.env 100) s0 overpaid = 6666 :=
  ⟨_, run_sound (run_eq (by decide +kernel)), by decide +kernel, by decide +kernel⟩

end Examples

end Verif
