import Verif.Spec.Ledger
import Verif.Spec.Live
/-!
Specification vocabulary for honest pools: the staking program reports only operations on real stakes (`Spec.LedgerRuns`)
and brings delegates up to date before it raises their stake; nobody takes tokens out of the vault behind the program's
back.  Nothing is assumed about the shares and tables that the program keeps, nor about failed instructions.
-/

namespace Verif.Spec

/-- Instructions that add stake to a mining or to a delegate. -/
def addsStake : Ix → Bool
  | .depositMining .. | .extendStake .. | .changeDelegate .. => true
  | _ => false

/-- The timing and the accounts of a successful instruction for pool `P` with vault `V`:
* stake is added only when the last distribution is already visible (not in the first second of its day);
* delegates are minings of `P`, and a delegate whose stake is raised by a deposit or a change of delegate has been brought
  up to date before;
* the vault is not the source of a fill. -/
structure PromptIx (env : Env) (P V : Key) (now : Nat) (w : World) (accs : List AccountInfo) (i : Ix) : Prop where
  settled : poolArg accs i = some P → addsStake i = true → ∀ p, PoolAt env w P p → Settled p.cumulative now
  delegate : poolArg accs i = some P → ∀ M D p, miningArg accs i = some M → delegateArg accs i = some D → D ≠ M →
    PoolAt env w P p → ∃ x, Member env w P D x ∧ (raisesDelegate i = true → x.index = lastIndex 0 p.cumulative)
  oldDelegate : poolArg accs i = some P → ∀ M D, miningArg accs i = some M → oldDelegateArg accs i = some D → D ≠ M →
    ∃ x, Member env w P D x
  source : ∀ r e, i = .fillVault r e → accs[4]?.map (·.key) ≠ some V

/-- Successful instructions are prompt, the vault keeps its rent, and nobody takes tokens out of it from outside. -/
def Prompt (env : Env) (P V : Key) (s : Chain) : Event → Prop
  | .ix accs i => (∃ r, exec env s.now s.world accs i = .ok r) → PromptIx env P V s.now s.world accs i
  | .tick _ => True
  | .gc k => k ≠ V
  | .ext w' => balance s.world V ≤ balance w' V

/-- The history `es` of the pool `P` with vault `V` is honest and leads from `s0` to `s` with stakes `L`. -/
structure HonestRun (env : Env) (P V : Key) (s0 : Chain) (es : List Event) (s : Chain) (L : Ledger) : Prop where
  ledger : LedgerRuns env P s0 [] es s L
  prompt : RunsWith env (Prompt env P V) s0 es s

/-- A slash as it should be made: `A P M` are the pool's deposit authority (who signs), the pool, and the staker's mining
of this pool; `owner` is the staker. -/
structure SlashReady (env : Env) (w : World) (accs : List AccountInfo) (A P M : AccountInfo)
    (rest : List AccountInfo) (p : Pool) (m : Mining) (owner : Key) : Prop where
  accs_eq : accs = A :: P :: M :: rest
  pool : PoolAt env w P.key p
  mining : Member env w P.key M.key m
  owner : owner = m.owner
  authority : A.key = p.depositAuthority ∧ A.isSigner = true
  writable : ∀ a ∈ accs, a.key = P.key ∨ a.key = M.key → a.isWritable = true

/-- All tokens that the stakes of the ledger amount to. -/
def Ledger.tokens (L : Ledger) : Nat := (L.map (·.amount)).sum

/-- A withdrawal that nobody but `A` has to sign. -/
def WithdrawalBy (A : Key) : Event → Prop
  | .ix accs (.withdrawMining ..) => ∀ a ∈ accs, a.isSigner = true → a.key = A
  | _ => False

end Verif.Spec
