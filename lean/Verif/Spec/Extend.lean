import Verif.Spec.Split
/-!
Specification vocabulary for comparing the extension of a stake with taking it out and putting it in again.
-/

namespace Verif.Spec

/-- The tokens of a stake with the terms `old`, made at `ts`, are free at `now`: they were never locked, or the lock is
over. -/
def TokensFree (now : Nat) (old : LockupPeriod) (ts : Nat) : Prop :=
  old = .flex ∨ ∃ k n, terms old = some (k, n) ∧ midnight ts + 86400 * n < 2 ^ 64 ∧ midnight ts + 86400 * n ≤ now

/-- The pool has taken off all expirations up to now. -/
def PoolUpToDate (now : Nat) (p : Pool) : Prop := ∀ e ∈ p.diffs, midnight now < e.1

/-- Two states differ in nothing but the pool at `P`, and there in nothing but the table of expirations, which has `v` more
on the day `x` in the second one. -/
structure OnlyMoreExpires (env : Env) (w w' : World) (P : Key) (x v : Nat) : Prop where
  others : ∀ k, k ≠ P → w' k = w k
  account : (w' P).owner = (w P).owner ∧ (w' P).lamports = (w P).lamports ∧ (w' P).len = (w P).len
  pool : ∃ q l, PoolAt env w P q ∧ PoolAt env w' P { q with diffs := l } ∧
    ∀ y, recordedAt l y = recordedAt q.diffs y + if y = x then v else 0

end Verif.Spec
