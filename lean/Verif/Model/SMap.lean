/-!
Fixed-capacity ordered map with `u64` keys: the contract of `sokoban::RedBlackTree<u64, V, CAP>` used by
`CumulativeIndex`, `PoolWeightedStakeDiffs` and `MiningWeightedStakeDiffs` (state/mod.rs:19-21).

The red-black tree itself is a dependency and is not modelled; its content is represented by the list of
(key, value) pairs in increasing key order, which is the order of `iter()`.  The tree lookup that belongs to this
repository (`find_max_value_limited_by_key`) is modelled on node arenas in `Verif.Model.Tree`.
-/

namespace Verif

/-- Content of a tree map, in iteration order. -/
abbrev SMap := List (Nat × Nat)

namespace SMap

/-- `get`. -/
def get (m : SMap) (k : Nat) : Option Nat :=
  match m with
  | [] => none
  | (k', v) :: t => if k = k' then some v else get t k

/-- `contains`. -/
def contains (m : SMap) (k : Nat) : Bool := (m.get k).isSome

/-- Ordered insertion, replacing the value of an existing key (no capacity check). -/
def put (m : SMap) (k v : Nat) : SMap :=
  match m with
  | [] => [(k, v)]
  | (k', v') :: t =>
    if k < k' then (k, v) :: (k', v') :: t
    else if k = k' then (k, v) :: t
    else (k', v') :: put t k v

/-- `NodeAllocatorMap::insert` of `RedBlackTree<_, _, CAP>`: replaces the value of an existing key; a new key is
added if the tree holds fewer than `cap` entries and silently dropped otherwise (sokoban returns `None`, every caller
in the program ignores the result: reward_pool.rs:127, 230, 246). -/
def insert (cap : Nat) (m : SMap) (k v : Nat) : SMap :=
  if m.contains k = true ∨ m.length < cap then m.put k v else m

/-- Write through `get_mut` to an existing key; no effect when the key is absent. -/
def set (m : SMap) (k v : Nat) : SMap :=
  match m with
  | [] => []
  | (k', v') :: t => if k = k' then (k, v) :: t else (k', v') :: set t k v

/-- `remove`. -/
def erase (m : SMap) (k : Nat) : SMap :=
  match m with
  | [] => []
  | (k', v') :: t => if k = k' then t else (k', v') :: erase t k

/-- Result of `find_max_value_limited_by_key` (state/mod.rs:56-81) on the content of the tree: the value of the
greatest key strictly below `key`.  `Verif.Model.Tree` models the loop; `Props.Lookup` proves the two agree. -/
def findMaxLt (m : SMap) (key : Nat) : Option Nat :=
  match m with
  | [] => none
  | (k, v) :: t => if k < key then (match findMaxLt t key with | some w => some w | none => some v) else none

end SMap

end Verif
