import Verif.Model.Processor
/-!
Specification vocabulary for instruction data and account lists.
-/

namespace Verif.Spec

/-- Instructions whose numbers fit the Rust types: `u64`, and 32-byte keys. -/
def InRange : Ix → Prop
  | .initializePool f d => f < 2 ^ 256 ∧ d < 2 ^ 256
  | .fillVault r e => r < 2 ^ 64 ∧ e < 2 ^ 64
  | .initializeMining o => o < 2 ^ 256
  | .depositMining a _ o d => a < 2 ^ 64 ∧ o < 2 ^ 256 ∧ d < 2 ^ 256
  | .withdrawMining a o d => a < 2 ^ 64 ∧ o < 2 ^ 256 ∧ d < 2 ^ 256
  | .extendStake _ _ ts b a o d => ts < 2 ^ 64 ∧ b < 2 ^ 64 ∧ a < 2 ^ 64 ∧ o < 2 ^ 256 ∧ d < 2 ^ 256
  | .changeDelegate a d => a < 2 ^ 64 ∧ d < 2 ^ 256
  | .slash o n m e => o < 2 ^ 256 ∧ n < 2 ^ 64 ∧ m < 2 ^ 64 ∧ ∀ x, e = some x → x < 2 ^ 64
  | .decreaseRewards o n => o < 2 ^ 256 ∧ n < 2 ^ 64
  | .claim | .distributeRewards | .closeMining => True

/-- The documented number of each instruction. -/
def number : Ix → UInt8
  | .initializePool .. => 0 | .fillVault .. => 1 | .initializeMining .. => 2 | .depositMining .. => 3
  | .withdrawMining .. => 4 | .claim => 5 | .extendStake .. => 6 | .distributeRewards => 7 | .closeMining => 8
  | .changeDelegate .. => 9 | .slash .. => 10 | .decreaseRewards .. => 11

/-- The runtime passes the listed accounts with at least the requested privileges (more, if another instruction of the
transaction requests them). -/
def Grants : (metas accs : List AccountInfo) → Prop
  | [], [] => True
  | m :: ms, a :: as => (a.key = m.key ∧ (m.isSigner = true → a.isSigner = true) ∧
      (m.isWritable = true → a.isWritable = true)) ∧ Grants ms as
  | _, _ => False

/-- Entries for one address have the same privileges. -/
def Merged (accs : List AccountInfo) : Prop :=
  ∀ a ∈ accs, ∀ b ∈ accs, a.key = b.key → a.isSigner = b.isSigner ∧ a.isWritable = b.isWritable

/-- The same accounts with every privilege there is. -/
def allPrivileges (accs : List AccountInfo) : List AccountInfo :=
  accs.map fun a => { key := a.key, isSigner := true, isWritable := true }

end Verif.Spec
