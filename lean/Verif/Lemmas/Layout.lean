import Verif.Spec.Layout
import Verif.Lemmas.Codec
/-!
Reading parts of little-endian encodings, and the headers as plain concatenations.
-/

namespace Verif

theorem fromLE_toLE_mod (n v : Nat) : fromLE (toLE n v) = v % 256 ^ n := by
  induction n generalizing v with
  | zero => simp [toLE, fromLE, Nat.mod_one]
  | succ n ih =>
    simp only [toLE, fromLE, ih, UInt8.toNat_ofNat']
    rw [show 256 ^ (n + 1) = 256 * 256 ^ n from Nat.pow_succ', Nat.mod_mul]

theorem toLE_take {k n : Nat} (v : Nat) (h : k ≤ n) : (toLE n v).take k = toLE k v := by
  induction k generalizing n v with
  | zero => simp [toLE]
  | succ k ih =>
    cases n with
    | zero => omega
    | succ n => simp [toLE, ih (v / 256) (by omega : k ≤ n)]

theorem toLE_drop (k n v : Nat) : (toLE n v).drop k = toLE (n - k) (v / 256 ^ k) := by
  induction k generalizing n v with
  | zero => simp
  | succ k ih =>
    cases n with
    | zero => simp [toLE]
    | succ n =>
      simp only [toLE, List.drop_succ_cons, ih, Nat.pow_succ', Nat.div_div_eq_div_mul]
      congr 1
      omega

/-- The header of a mining has no padding. -/
theorem miningBytes_eq {a : Nat} (ha : a = 8 ∨ a = 16) (h : MiningHeader) :
    miningBytes a h = toLE 32 h.rewardPool ++ (toLE 32 h.owner ++ (toLE 32 h.rewardMint ++ (toLE 16 h.index ++
      (toLE 8 h.share ++ (toLE 8 h.unclaimed ++ (toLE 8 h.stakeFromOthers ++ (toLE 1 h.bump ++ toLE 7 h.data))))))) := by
  rcases ha with rfl | rfl <;>
    simp [miningBytes, cStruct, MiningHeader.values, miningFields, cBytes, fKey, fU128, fU64, fU8, fBytes, zeros, alignUp,
      cSize, cEnd, cAlign]

theorem poolBytes_eq {a : Nat} (ha : a = 8 ∨ a = 16) (h : PoolHeader) :
    poolBytes a h = toLE 32 h.depositAuthority ++ (toLE 32 h.distributeAuthority ++ (toLE 32 h.fillAuthority ++
      (toLE 32 h.rewardMint ++ (toLE 16 h.index ++ (toLE 8 h.totalShare ++ (toLE 8 h.distributionEndsAt ++
      (toLE 8 h.tokensAvailable ++ (toLE 1 h.bump ++ toLE 7 h.data)))))))) := by
  rcases ha with rfl | rfl <;>
    simp [poolBytes, cStruct, PoolHeader.values, poolFields, cBytes, fKey, fU128, fU64, fU8, fBytes, zeros, alignUp,
      cSize, cEnd, cAlign]

theorem castMining_eq {a : Nat} (ha : a = 8 ∨ a = 16) (bs : Bytes) :
    castMining a bs =
      { rewardPool := readAt 0 32 bs, owner := readAt 32 32 bs, rewardMint := readAt 64 32 bs, index := readAt 96 16 bs,
        share := readAt 112 8 bs, unclaimed := readAt 120 8 bs, stakeFromOthers := readAt 128 8 bs, bump := readAt 136 1 bs,
        data := readAt 137 7 bs } := by
  rcases ha with rfl | rfl <;>
    simp [castMining, miningFields, cOffsets, fKey, fU128, fU64, fU8, fBytes, alignUp]

theorem castPool_eq {a : Nat} (ha : a = 8 ∨ a = 16) (bs : Bytes) :
    castPool a bs =
      { depositAuthority := readAt 0 32 bs, distributeAuthority := readAt 32 32 bs, fillAuthority := readAt 64 32 bs,
        rewardMint := readAt 96 32 bs, index := readAt 128 16 bs, totalShare := readAt 144 8 bs,
        distributionEndsAt := readAt 152 8 bs, tokensAvailable := readAt 160 8 bs, bump := readAt 168 1 bs,
        data := readAt 169 7 bs } := by
  rcases ha with rfl | rfl <;>
    simp [castPool, poolFields, cOffsets, fKey, fU128, fU64, fU8, fBytes, alignUp]

theorem readLE_bind {α : Type} (n : Nat) (f : Nat → Reader α) (bs : Bytes) (h : n ≤ bs.length) :
    (readLE n >>= f) bs = f (readAt 0 n bs) (bs.drop n) := by
  show Reader.bind _ _ _ = _
  simp [Reader.bind, readLE, h, readAt]

theorem readLE_bind_none {α : Type} {n : Nat} {f : Nat → Reader α} {bs : Bytes}
    (h : n ≤ bs.length → f (readAt 0 n bs) (bs.drop n) = none) : (readLE n >>= f) bs = none := by
  by_cases hn : n ≤ bs.length
  · rw [readLE_bind n f bs hn]; exact h hn
  · show Reader.bind _ _ _ = _
    simp [Reader.bind, readLE, hn]

theorem readAt_drop (i n k : Nat) (bs : Bytes) : readAt i n (bs.drop k) = readAt (k + i) n bs := by
  simp [readAt, List.drop_drop]

theorem clientMining_eq (bs : Bytes) (h : 144 ≤ bs.length) :
    clientMining bs = some (
      { rewardPool := readAt 0 32 bs, owner := readAt 32 32 bs, rewardMint := readAt 64 32 bs, index := readAt 96 16 bs,
        share := readAt 112 8 bs, unclaimed := readAt 120 8 bs, stakeFromOthers := readAt 128 8 bs, bump := readAt 136 1 bs,
        data := readAt 137 7 bs }, bs.drop 144) := by
  unfold clientMining
  rw [readLE_bind _ _ _ (by omega)]
  iterate 8 rw [readLE_bind _ _ _ (by simp only [List.length_drop]; omega)]
  simp only [readAt_drop, List.drop_drop]
  rfl

theorem clientMining_none (bs : Bytes) (h : ¬ 144 ≤ bs.length) : clientMining bs = none := by
  unfold clientMining
  iterate 9 refine readLE_bind_none fun _ => ?_
  simp only [List.length_drop] at *
  omega

theorem clientPool_none (bs : Bytes) (h : ¬ 176 ≤ bs.length) : clientPool bs = none := by
  unfold clientPool
  iterate 10 refine readLE_bind_none fun _ => ?_
  simp only [List.length_drop] at *
  omega

theorem clientPool_eq (bs : Bytes) (h : 176 ≤ bs.length) :
    clientPool bs = some (
      { depositAuthority := readAt 0 32 bs, distributeAuthority := readAt 32 32 bs, fillAuthority := readAt 64 32 bs,
        rewardMint := readAt 96 32 bs, index := readAt 128 16 bs, totalShare := readAt 144 8 bs,
        distributionEndsAt := readAt 152 8 bs, tokensAvailable := readAt 160 8 bs, bump := readAt 168 1 bs,
        data := readAt 169 7 bs }, bs.drop 176) := by
  unfold clientPool
  rw [readLE_bind _ _ _ (by omega)]
  iterate 9 rw [readLE_bind _ _ _ (by simp only [List.length_drop]; omega)]
  simp only [readAt_drop, List.drop_drop]
  rfl

theorem readAt_append_right (i n : Nat) (x y : Bytes) (h : x.length ≤ i) :
    readAt i n (x ++ y) = readAt (i - x.length) n y := by
  simp [readAt, List.drop_append, List.drop_eq_nil_of_le h]

theorem readAt_head (n v : Nat) (y : Bytes) (h : v < 256 ^ n) : readAt 0 n (toLE n v ++ y) = v := by
  simp [readAt, toLE_length, fromLE_toLE h]

end Verif
