import Verif.Model.Layout
/-!
Specification: header values that fit their fields.
-/

namespace Verif.Spec

/-- Field widths of `Mining`: 32-byte keys, a 16-byte index, three 8-byte amounts, one byte, seven bytes. -/
structure MiningInRange (h : MiningHeader) : Prop where
  rewardPool : h.rewardPool < 2 ^ 256
  owner : h.owner < 2 ^ 256
  rewardMint : h.rewardMint < 2 ^ 256
  index : h.index < 2 ^ 128
  share : h.share < 2 ^ 64
  unclaimed : h.unclaimed < 2 ^ 64
  sfo : h.stakeFromOthers < 2 ^ 64
  bump : h.bump < 2 ^ 8
  data : h.data < 2 ^ 56

/-- Field widths of `RewardPool`. -/
structure PoolInRange (h : PoolHeader) : Prop where
  deposit : h.depositAuthority < 2 ^ 256
  distribute : h.distributeAuthority < 2 ^ 256
  fill : h.fillAuthority < 2 ^ 256
  rewardMint : h.rewardMint < 2 ^ 256
  index : h.index < 2 ^ 128
  total : h.totalShare < 2 ^ 64
  ends : h.distributionEndsAt < 2 ^ 64
  tokens : h.tokensAvailable < 2 ^ 64
  bump : h.bump < 2 ^ 8
  data : h.data < 2 ^ 56

end Verif.Spec
