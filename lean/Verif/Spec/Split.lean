import Verif.Spec.Exact
/-!
Specification vocabulary for instructions that are split in two, and for instructions that are undone.
-/

namespace Verif.Spec

/-- The mining has consumed all of the index that is visible at `now`, none of its locks has expired unnoticed, and its
stake is a 64-bit number. -/
structure UpToDate (now : Nat) (cum : List (Nat × Nat)) (m : Mining) : Prop where
  index : m.index = indexBefore cum now
  locks : ∀ e ∈ m.diffs, midnight now < e.1
  stake : m.share + m.stakeFromOthers < 2 ^ 64

/-- Executing one instruction has the same effect as executing two others, one after the other, in the same second with the
same accounts: one way succeeds if and only if the other does, and the state afterwards is the same. -/
def SameAsTwo (env : Env) (now : Nat) (w : World) (accs : List AccountInfo) (i i1 i2 : Ix) : Prop :=
  ∀ w', exec env now w accs i = .ok (w', none) ↔
    ∃ w1, exec env now w accs i1 = .ok (w1, none) ∧ exec env now w1 accs i2 = .ok (w', none)

/-- A table of expirations says the same as another one about every day after `b`, and nothing about the others.  (It may
have more entries, with nothing expiring.) -/
def SameAfter (b : Nat) (l l' : List (Nat × Nat)) : Prop :=
  ∀ x, recordedAt l' x = if b < x then recordedAt l x else 0

/-- All that has happened to the state is that the pool at `P` and the mining at `M` were brought up to date: what had
expired has been taken off, and the rewards of the mining have been credited. -/
structure OnlyUpToDate (env : Env) (now : Nat) (w w' : World) (P M : Key) (p : Pool) (m : Mining) : Prop where
  pool : ∃ l, PoolAt env w' P { p with totalShare := p.totalShare - dueBy p.diffs (midnight now), diffs := l } ∧
    SameAfter (midnight now) p.diffs l
  mining : ∃ l, MiningAt env w' M { m with
      share := m.share - dueBy m.diffs (midnight now), unclaimed := due now p.cumulative m,
      index := indexBefore p.cumulative now, diffs := l } ∧
    SameAfter (midnight now) m.diffs l
  others : ∀ k, k ≠ P → k ≠ M → w' k = w k
  accounts : ∀ k, (w' k).owner = (w k).owner ∧ (w' k).lamports = (w k).lamports ∧ (w' k).len = (w k).len

end Verif.Spec
