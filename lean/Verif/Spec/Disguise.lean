import Verif.Spec.World
import Verif.Spec.Layout
/-!
Specification vocabulary for pool accounts passed where the program expects a mining.
-/

namespace Verif.Spec

/-- A pool account read as a mining shows what its bytes say (the model keeps only one byte of `data`, which is left aside here). -/
def ReadsBytes (env : Env) : Prop :=
  ∀ (a : Nat) (p : Pool) (tables : Bytes), a = 8 ∨ a = 16 → PoolInRange p.header →
    { (env.poolAsMining p).header with data := 0 } = { castMining a (poolBytes a p.header ++ tables) with data := 0 }

/-- All pools are as in practice: their fields have the proper size, the last eight bytes of their mint's address are not all zero,
and their deposit authority is not itself an account of the program. -/
def OrdinaryPools (env : Env) (w : World) : Prop :=
  ∀ k p, PoolAt env w k p →
    PoolInRange p.header ∧ 2 ^ 192 ≤ p.rewardMint ∧ (w p.depositAuthority).owner ≠ env.programId

/-- All pools are ordinary, and no change of delegate names a pool as the old delegate. -/
def OrdinaryEvent (env : Env) (s : Chain) : Event → Prop
  | .ix accs i => OrdinaryPools env s.world ∧
      (∀ a d, i = .changeDelegate a d → ∀ b, accs[4]? = some b → ∀ q, ¬ PoolAt env s.world b.key q)
  | _ => True

end Verif.Spec
