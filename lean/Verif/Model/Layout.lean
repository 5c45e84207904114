import Verif.Model.Codec
import Verif.Model.State
/-!
Account headers as bytes: the `#[repr(C)]` layout of `Mining` (state/mining.rs:113-141) and `RewardPool`
(state/reward_pool.rs:424-456), which the program reads and writes in place through bytemuck, and the decoders of the generated
clients.

The alignment of `u128` depends on the compiler and the target (8 or 16), so it is a parameter.
The tables that follow the headers are modelled by their sizes only.
-/

namespace Verif

/-- The next multiple of `a` at or after `n`. -/
def alignUp (n a : Nat) : Nat := (n + a - 1) / a * a

/-- A field of a `#[repr(C)]` struct: alignment and size. -/
structure CField where
  align : Nat
  size : Nat
  deriving DecidableEq, Repr

/-- `#[repr(C)]`: each field begins at the next multiple of its alignment after the previous field. -/
def cOffsets : Nat → List CField → List Nat
  | _, [] => []
  | pos, f :: fs => alignUp pos f.align :: cOffsets (alignUp pos f.align + f.size) fs

/-- Where the last field ends. -/
def cEnd : Nat → List CField → Nat
  | pos, [] => pos
  | pos, f :: fs => cEnd (alignUp pos f.align + f.size) fs

def cAlign (fs : List CField) : Nat := fs.foldr (fun f a => max f.align a) 1

/-- `size_of`: the end rounded up to the alignment of the struct. -/
def cSize (fs : List CField) : Nat := alignUp (cEnd 0 fs) (cAlign fs)

def fKey : CField := ⟨1, 32⟩
def fU128 (a : Nat) : CField := ⟨a, 16⟩
def fU64 : CField := ⟨8, 8⟩
def fU32 : CField := ⟨4, 4⟩
def fU8 : CField := ⟨1, 1⟩
def fBytes (n : Nat) : CField := ⟨1, n⟩
def fStruct (fs : List CField) : CField := ⟨cAlign fs, cSize fs⟩
def fArray (f : CField) (n : Nat) : CField := ⟨f.align, f.size * n⟩

/-- `Mining`, mining.rs:113-141, in order of declaration. -/
def miningFields (a : Nat) : List CField :=
  [fKey, fKey, fKey, fU128 a, fU64, fU64, fU64, fU8, fBytes 7]

/-- `RewardPool`, reward_pool.rs:424-456, in order of declaration. -/
def poolFields (a : Nat) : List CField :=
  [fKey, fKey, fKey, fKey, fU128 a, fU64, fU64, fU64, fU8, fBytes 7]

/-- sokoban 0.3 `RedBlackTree<K, V, N>`: root and padding, then the node allocator (size, two indices, the nodes); a node has
four 32-bit registers, a key and a value. -/
def treeFields (key value : CField) (n : Nat) : List CField :=
  [fU32, fArray fU32 3,
   fStruct [fU64, fU32, fU32, fArray (fStruct [fArray fU32 4, fStruct [key, value]]) n]]

/-- `WrappedMining`: header, `MiningWeightedStakeDiffs` (mining.rs:28-54; state/mod.rs:21). -/
def miningAccountSize (a : Nat) (caps : Caps) : Nat :=
  cSize (miningFields a) + cSize (treeFields fU64 fU64 caps.mining)

/-- `WrappedRewardPool`: header, `PoolWeightedStakeDiffs`, `CumulativeIndex` (reward_pool.rs:68-91; state/mod.rs:19-20). -/
def poolAccountSize (a : Nat) (caps : Caps) : Nat :=
  cSize (poolFields a) + cSize (treeFields fU64 fU64 caps.pool) + cSize (treeFields fU64 (fU128 a) caps.index)

/-- The fields of `Mining`, mining.rs:115-141; `data` is the value of its seven bytes, `data[0]` lowest. -/
structure MiningHeader where
  rewardPool : Key
  owner : Key
  rewardMint : Key
  index : Nat
  share : Nat
  unclaimed : Nat
  stakeFromOthers : Nat
  bump : Nat
  data : Nat
  deriving DecidableEq, Repr

/-- The fields of `RewardPool`, reward_pool.rs:426-456; `data` as above. -/
structure PoolHeader where
  depositAuthority : Key
  distributeAuthority : Key
  fillAuthority : Key
  rewardMint : Key
  index : Nat
  totalShare : Nat
  distributionEndsAt : Nat
  tokensAvailable : Nat
  bump : Nat
  data : Nat
  deriving DecidableEq, Repr

/-- The header of a mining.  The six unused bytes of `data` are zero: `Mining::initialize` (mining.rs:150-163) sets them and
nothing writes them again. -/
def Mining.header (m : Mining) : MiningHeader :=
  { rewardPool := m.rewardPool, owner := m.owner, rewardMint := m.rewardMint, index := m.index, share := m.share,
    unclaimed := m.unclaimed, stakeFromOthers := m.stakeFromOthers, bump := m.bump, data := m.accountType }

/-- The header of a pool (`RewardPool::initialize`, reward_pool.rs:464-485, for the unused bytes). -/
def Pool.header (p : Pool) : PoolHeader :=
  { depositAuthority := p.depositAuthority, distributeAuthority := p.distributeAuthority, fillAuthority := p.fillAuthority,
    rewardMint := p.rewardMint, index := p.index, totalShare := p.totalShare, distributionEndsAt := p.distributionEndsAt,
    tokensAvailable := p.tokensAvailable, bump := p.bump, data := p.accountType }

def zeros (n : Nat) : Bytes := List.replicate n 0

/-- Fields with their values, in memory: padding, then the value little endian. -/
def cBytes : Nat → List (CField × Nat) → Bytes
  | _, [] => []
  | pos, (f, v) :: fs =>
    zeros (alignUp pos f.align - pos) ++ toLE f.size v ++ cBytes (alignUp pos f.align + f.size) fs

/-- A struct in memory, with the padding at its end. -/
def cStruct (fs : List (CField × Nat)) : Bytes :=
  cBytes 0 fs ++ zeros (cSize (fs.map (·.1)) - cEnd 0 (fs.map (·.1)))

def MiningHeader.values (h : MiningHeader) : List Nat :=
  [h.rewardPool, h.owner, h.rewardMint, h.index, h.share, h.unclaimed, h.stakeFromOthers, h.bump, h.data]

def PoolHeader.values (h : PoolHeader) : List Nat :=
  [h.depositAuthority, h.distributeAuthority, h.fillAuthority, h.rewardMint, h.index, h.totalShare, h.distributionEndsAt,
   h.tokensAvailable, h.bump, h.data]

/-- What the program's writes leave in the account: the header in place. -/
def miningBytes (a : Nat) (h : MiningHeader) : Bytes := cStruct ((miningFields a).zip h.values)
def poolBytes (a : Nat) (h : PoolHeader) : Bytes := cStruct ((poolFields a).zip h.values)

/-- Reading `size` bytes at an offset. -/
def readAt (offset size : Nat) (bs : Bytes) : Nat := fromLE ((bs.drop offset).take size)

/-- The program's own reading, `Mining::load_bytes` (a bytemuck cast, mining.rs:42-43): each field at its offset. -/
def castMining (a : Nat) (bs : Bytes) : MiningHeader :=
  let at_ (i : Nat) := readAt ((cOffsets 0 (miningFields a)).getD i 0) ((miningFields a).getD i fU8).size bs
  { rewardPool := at_ 0, owner := at_ 1, rewardMint := at_ 2, index := at_ 3, share := at_ 4, unclaimed := at_ 5,
    stakeFromOthers := at_ 6, bump := at_ 7, data := at_ 8 }

/-- `RewardPool::load_bytes`, reward_pool.rs:52-53, 76-77. -/
def castPool (a : Nat) (bs : Bytes) : PoolHeader :=
  let at_ (i : Nat) := readAt ((cOffsets 0 (poolFields a)).getD i 0) ((poolFields a).getD i fU8).size bs
  { depositAuthority := at_ 0, distributeAuthority := at_ 1, fillAuthority := at_ 2, rewardMint := at_ 3, index := at_ 4,
    totalShare := at_ 5, distributionEndsAt := at_ 6, tokensAvailable := at_ 7, bump := at_ 8, data := at_ 9 }

/-- The clients' decoders, field after field: `Mining::from_bytes` (clients/rust/src/generated/accounts/mining.rs, derived
Borsh) and `getMiningAccountDataSerializer` (clients/js/src/generated/accounts/mining.ts). -/
def clientMining : Reader MiningHeader := do
  let rewardPool ← readLE 32
  let owner ← readLE 32
  let rewardMint ← readLE 32
  let index ← readLE 16
  let share ← readLE 8
  let unclaimed ← readLE 8
  let stakeFromOthers ← readLE 8
  let bump ← readLE 1
  let data ← readLE 7
  pure { rewardPool, owner, rewardMint, index, share, unclaimed, stakeFromOthers, bump, data }

/-- `RewardPool::from_bytes` (clients/rust/src/generated/accounts/reward_pool.rs) and `getRewardPoolAccountDataSerializer`
(clients/js/src/generated/accounts/rewardPool.ts). -/
def clientPool : Reader PoolHeader := do
  let depositAuthority ← readLE 32
  let distributeAuthority ← readLE 32
  let fillAuthority ← readLE 32
  let rewardMint ← readLE 32
  let index ← readLE 16
  let totalShare ← readLE 8
  let distributionEndsAt ← readLE 8
  let tokensAvailable ← readLE 8
  let bump ← readLE 1
  let data ← readLE 7
  pure { depositAuthority, distributeAuthority, fillAuthority, rewardMint, index, totalShare, distributionEndsAt,
         tokensAvailable, bump, data }

/-- `getMiningGpaBuilder`, clients/js/src/generated/accounts/mining.ts: the offsets registered for account filters. -/
def miningGpaOffsets : List Nat := [0, 32, 64, 96, 112, 120, 128, 136, 137]

/-- `getRewardPoolGpaBuilder`, clients/js/src/generated/accounts/rewardPool.ts. -/
def poolGpaOffsets : List Nat := [0, 32, 64, 96, 128, 144, 152, 160, 168, 169]

/-- `Mining::LEN` of the Rust client, `getMiningSize` of the JS client. -/
def CLIENT_MINING_LEN : Nat := 144
/-- `RewardPool::LEN` of the Rust client, `getRewardPoolSize` of the JS client. -/
def CLIENT_POOL_LEN : Nat := 176

end Verif
