import Verif.Spec.Codec
/-!
Specification vocabulary for the accounts, signatures and write privileges an instruction needs.
-/

namespace Verif.Spec

/-- How many accounts an instruction takes. -/
def accountCount : Ix → Nat
  | .initializePool .. => 8
  | .fillVault .. => 6
  | .initializeMining .. => 4
  | .depositMining .. => 4
  | .withdrawMining .. => 4
  | .claim => 8
  | .extendStake .. => 4
  | .distributeRewards => 2
  | .closeMining => 5
  | .changeDelegate .. => 6
  | .slash .. => 3
  | .decreaseRewards .. => 3

/-- The positions of the accounts that have to sign. -/
def mustSign : Ix → List Nat
  | .initializePool .. => [3, 4]
  | .fillVault .. => [3]
  | .initializeMining .. => [2]
  | .depositMining .. => [2]
  | .withdrawMining .. => [2]
  | .claim => [4, 5]
  | .extendStake .. => [2]
  | .distributeRewards => [1]
  | .closeMining => [1, 3]
  | .changeDelegate .. => [2, 3]
  | .slash .. => [0]
  | .decreaseRewards .. => [0]

/-- The positions of the accounts that are passed on to another program as writable; `ret` is the amount returned (a claim of nothing
transfers nothing). -/
def passedOn (ret : Option Nat) : Ix → List Nat
  | .initializePool .. => [2, 3]
  | .fillVault .. => [2, 4]
  | .initializeMining .. => [1, 2]
  | .claim => if ret = some 0 then [] else [2, 6]
  | _ => []

/-- The accounts have signed where `i` needs it, may be written where `i` passes them on as writable, and those that are changed
may be written. -/
structure Sufficient (w w' : World) (ret : Option Nat) (accs : List AccountInfo) (i : Ix) : Prop where
  signed : ∀ n ∈ mustSign i, ∃ a, accs[n]? = some a ∧ a.isSigner = true
  writable : ∀ n ∈ passedOn ret i, ∃ a, accs[n]? = some a ∧ a.isWritable = true
  changed : ∀ a ∈ accs, w' a.key ≠ w a.key → a.isWritable = true

end Verif.Spec
