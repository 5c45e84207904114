import Verif.Spec.Incentive
/-!
Vocabulary for the dates in a pool's table of expirations (C128).
-/

namespace Verif.Spec

/-- No expiration that is due by today is left in the pool's table. -/
def NothingOverdue (now : Nat) (p : Pool) : Prop := ∀ e ∈ p.diffs, midnight now < e.1

/-- … whichever pool is at `P`. -/
def PoolSwept (env : Env) (P : Key) (s : Chain) : Prop := ∀ p, PoolAt env s.world P p → NothingOverdue s.now p

/-- The midnights passed between two moments. -/
def daysPassed (t t' : Nat) : Nat := t' / 86400 - t / 86400

/-- Distributing, withdrawing and slashing: the instructions that remove due expirations from the table of the pool `P`. -/
def Sweeps (accs : List AccountInfo) (P : Key) : Ix → Prop
  | .distributeRewards | .withdrawMining .. => FirstIs accs P
  | .slash .. => ∃ A B rest, accs = A :: B :: rest ∧ B.key = P
  | _ => False

end Verif.Spec
