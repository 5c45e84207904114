import Verif.Spec.World
/-!
Specification: every number fits the field it is stored in, every table fits the space reserved for it.
Field widths: state/mining.rs:115-141, state/reward_pool.rs:426-456.
-/

namespace Verif.Spec

structure MiningFits (caps : Caps) (m : Mining) : Prop where
  index : m.index < 2 ^ 128
  share : m.share < 2 ^ 64
  unclaimed : m.unclaimed < 2 ^ 64
  sfo : m.stakeFromOthers < 2 ^ 64
  diffs : ∀ e ∈ m.diffs, e.1 < 2 ^ 64 ∧ e.2 < 2 ^ 64
  room : m.diffs.length ≤ caps.mining

structure PoolFits (caps : Caps) (p : Pool) : Prop where
  index : p.index < 2 ^ 128
  total : p.totalShare < 2 ^ 64
  ends : p.distributionEndsAt < 2 ^ 64
  tokens : p.tokensAvailable < 2 ^ 64
  diffs : ∀ e ∈ p.diffs, e.1 < 2 ^ 64 ∧ e.2 < 2 ^ 64
  room : p.diffs.length ≤ caps.pool
  cumulative : ∀ e ∈ p.cumulative, e.1 < 2 ^ 64 ∧ e.2 < 2 ^ 128
  history : p.cumulative.length ≤ caps.index

/-- All pools and minings fit. -/
structure AllFit (env : Env) (w : World) : Prop where
  pools : ∀ k p, PoolAt env w k p → PoolFits env.caps p
  minings : ∀ k m, MiningAt env w k m → MiningFits env.caps m

end Verif.Spec
