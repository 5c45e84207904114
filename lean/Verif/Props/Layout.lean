import Verif.Lemmas.Layout
import Verif.Lemmas.Demo
/-!
C49: account headers decode as clients expect.

`a` is the alignment of a 128-bit number, 8 or 16 depending on the compiler and the target.
-/

namespace Verif
open Spec

/-- C49: the header fields are where the clients look for them, the headers have the sizes the clients give, and the accounts the
program asks for are long enough: a mining account exactly; a pool account exactly if 128-bit numbers are 16-aligned, with 8760
bytes to spare if they are 8-aligned. -/
theorem C49_sizes :
    (∀ a, a = 8 ∨ a = 16 →
      cOffsets 0 (miningFields a) = miningGpaOffsets ∧ cOffsets 0 (poolFields a) = poolGpaOffsets ∧
      cSize (miningFields a) = CLIENT_MINING_LEN ∧ CLIENT_MINING_LEN = 144 ∧ MINING_HEADER = 144 ∧
      cSize (poolFields a) = CLIENT_POOL_LEN ∧ CLIENT_POOL_LEN = 176 ∧ POOL_HEADER = 176 ∧
      miningAccountSize a Caps.deployed = MINING_LEN) ∧
    poolAccountSize 16 Caps.deployed = POOL_LEN ∧
    poolAccountSize 8 Caps.deployed + 8760 = POOL_LEN := by
  refine ⟨?_, by decide, by decide⟩
  rintro a (rfl | rfl) <;> decide

/-- C49: whatever the bytes of an account, clients decode the mining the program sees in it, and nothing if it is too short. -/
theorem C49_mining_agree {a : Nat} (ha : a = 8 ∨ a = 16) (bs : Bytes) :
    clientMining bs = if 144 ≤ bs.length then some (castMining a bs, bs.drop 144) else none := by
  split
  · rename_i h
    rw [castMining_eq ha, clientMining_eq bs h]
  · rename_i h
    exact clientMining_none bs h

/-- C49: the same for pools. -/
theorem C49_pool_agree {a : Nat} (ha : a = 8 ∨ a = 16) (bs : Bytes) :
    clientPool bs = if 176 ≤ bs.length then some (castPool a bs, bs.drop 176) else none := by
  split
  · rename_i h
    rw [castPool_eq ha, clientPool_eq bs h]
  · rename_i h
    exact clientPool_none bs h

/-- C49: a header written by the program is 144 bytes long; the program, the clients' decoders and a filter at each offset the JS
client registers give back every field, whatever follows the header. -/
theorem C49_mining {a : Nat} (ha : a = 8 ∨ a = 16) {h : MiningHeader} (hr : MiningInRange h) (table : Bytes) :
    (miningBytes a h).length = 144 ∧
    castMining a (miningBytes a h ++ table) = h ∧
    clientMining (miningBytes a h ++ table) = some (h, table) ∧
    ∀ i, i < 9 → readAt (miningGpaOffsets.getD i 0) ([32, 32, 32, 16, 8, 8, 8, 1, 7].getD i 0) (miningBytes a h ++ table)
      = h.values.getD i 0 := by
  have hl : (miningBytes a h).length = 144 := by simp [miningBytes_eq ha, toLE_length]
  have hload : castMining a (miningBytes a h ++ table) = h := by
    rw [castMining_eq ha, miningBytes_eq ha]
    obtain ⟨h1, h2, h3, h4, h5, h6, h7, h8, h9⟩ := hr
    simp only [List.append_assoc, readAt_append_right, toLE_length, Nat.sub_self, Nat.reduceSub, Nat.reduceLeDiff,
      Nat.le_refl, readAt_head 32 _ _ h1, readAt_head 32 _ _ h2, readAt_head 32 _ _ h3, readAt_head 16 _ _ h4,
      readAt_head 8 _ _ h5, readAt_head 8 _ _ h6, readAt_head 8 _ _ h7, readAt_head 1 _ _ h8, readAt_head 7 _ _ h9]
  refine ⟨hl, hload, ?_, ?_⟩
  · rw [C49_mining_agree ha, hload]
    simp [hl]
  · rw [castMining_eq ha] at hload
    generalize miningBytes a h ++ table = bs at hload
    rw [← hload]
    intro i hi
    match i, hi with
    | 0, _ | 1, _ | 2, _ | 3, _ | 4, _ | 5, _ | 6, _ | 7, _ | 8, _ => rfl

/-- C49: the same for pools; their header is 176 bytes long. -/
theorem C49_pool {a : Nat} (ha : a = 8 ∨ a = 16) {h : PoolHeader} (hr : PoolInRange h) (tables : Bytes) :
    (poolBytes a h).length = 176 ∧
    castPool a (poolBytes a h ++ tables) = h ∧
    clientPool (poolBytes a h ++ tables) = some (h, tables) ∧
    ∀ i, i < 10 → readAt (poolGpaOffsets.getD i 0) ([32, 32, 32, 32, 16, 8, 8, 8, 1, 7].getD i 0) (poolBytes a h ++ tables)
      = h.values.getD i 0 := by
  have hl : (poolBytes a h).length = 176 := by simp [poolBytes_eq ha, toLE_length]
  have hload : castPool a (poolBytes a h ++ tables) = h := by
    rw [castPool_eq ha, poolBytes_eq ha]
    obtain ⟨h1, h2, h3, h4, h5, h6, h7, h8, h9, h10⟩ := hr
    simp only [List.append_assoc, readAt_append_right, toLE_length, Nat.sub_self, Nat.reduceSub, Nat.reduceLeDiff,
      Nat.le_refl, readAt_head 32 _ _ h1, readAt_head 32 _ _ h2, readAt_head 32 _ _ h3, readAt_head 32 _ _ h4,
      readAt_head 16 _ _ h5, readAt_head 8 _ _ h6, readAt_head 8 _ _ h7, readAt_head 8 _ _ h8, readAt_head 1 _ _ h9,
      readAt_head 7 _ _ h10]
  refine ⟨hl, hload, ?_, ?_⟩
  · rw [C49_pool_agree ha, hload]
    simp [hl]
  · rw [castPool_eq ha] at hload
    generalize poolBytes a h ++ tables = bs at hload
    rw [← hload]
    intro i hi
    match i, hi with
    | 0, _ | 1, _ | 2, _ | 3, _ | 4, _ | 5, _ | 6, _ | 7, _ | 8, _ | 9, _ => rfl

/-- What the program sees when a pool account is passed where a mining is expected (it checks no account type): the three
authorities as pool, owner and mint, the pool's mint as index, stake and unclaimed rewards, the pool's index as the rest.  This
justifies `Env.poolAsMining_keys` and the example environment. -/
theorem C49_pool_as_mining {a : Nat} (ha : a = 8 ∨ a = 16) {h : PoolHeader} (hr : PoolInRange h) (tables : Bytes) :
    castMining a (poolBytes a h ++ tables) =
      { rewardPool := h.depositAuthority, owner := h.distributeAuthority, rewardMint := h.fillAuthority,
        index := h.rewardMint % 2 ^ 128, share := h.rewardMint / 2 ^ 128 % 2 ^ 64, unclaimed := h.rewardMint / 2 ^ 192,
        stakeFromOthers := h.index % 2 ^ 64, bump := h.index / 2 ^ 64 % 256, data := h.index / 2 ^ 72 } := by
  rw [castMining_eq ha, poolBytes_eq ha]
  obtain ⟨h1, h2, h3, h4, h5, h6, h7, h8, h9, h10⟩ := hr
  have part : ∀ (i n w v : Nat) (y : Bytes), i + n ≤ w → readAt i n (toLE w v ++ y) = v / 256 ^ i % 256 ^ n := by
    intro i n w v y hi
    have e1 : (toLE w v ++ y).drop i = toLE (w - i) (v / 256 ^ i) ++ y := by
      rw [List.drop_append_of_le_length (by rw [toLE_length]; omega), toLE_drop]
    rw [readAt, e1, List.take_append_of_le_length (by rw [toLE_length]; omega), toLE_take _ (by omega), fromLE_toLE_mod]
  simp only [List.append_assoc, readAt_append_right, toLE_length, Nat.sub_self, Nat.reduceSub, Nat.reduceLeDiff,
    Nat.le_refl, readAt_head 32 _ _ h1, readAt_head 32 _ _ h2, readAt_head 32 _ _ h3]
  rw [part 0 16 32 _ _ (by omega), part 16 8 32 _ _ (by omega), part 24 8 32 _ _ (by omega),
    part 0 8 16 _ _ (by omega), part 8 1 16 _ _ (by omega), part 9 7 16 _ _ (by omega)]
  congr 1
  · simp
  · exact Nat.mod_eq_of_lt (Nat.div_lt_of_lt_mul (show h.rewardMint < 256 ^ 24 * 256 ^ 8 from h4))
  · simp
  · exact Nat.mod_eq_of_lt (Nat.div_lt_of_lt_mul (show h.index < 256 ^ 9 * 256 ^ 7 from h5))

/-! ### Examples -/

namespace Demo

/-- A mining with every field in use. -/
def someMining : MiningHeader :=
  { rewardPool := 2 ^ 255 + 7, owner := 2 ^ 200 + 1, rewardMint := 0, index := 2 ^ 127 + 5, share := 2 ^ 63, unclaimed := 1234567,
    stakeFromOthers := 99, bump := 254, data := 2 }

example : MiningInRange someMining := by constructor <;> decide

example : (miningBytes 8 someMining).length = 144 ∧ clientMining (miningBytes 8 someMining ++ [1, 2, 3]) = some (someMining, [1, 2, 3]) :=
  have h := C49_mining (a := 8) (.inl rfl) (h := someMining) (by constructor <;> decide) [1, 2, 3]
  ⟨h.1, h.2.2.1⟩

def somePool : PoolHeader :=
  { depositAuthority := 2 ^ 255 + 7, distributeAuthority := 2 ^ 200 + 1, fillAuthority := 3, rewardMint := 2 ^ 192 * 5 + 2 ^ 128 * 6 + 7,
    index := 2 ^ 72 * 9 + 2 ^ 64 * 8 + 10, totalShare := 2 ^ 63, distributionEndsAt := 1234567, tokensAvailable := 99, bump := 254,
    data := 1 }

example : PoolInRange somePool := by constructor <;> decide

/-- The example environment reads pools as minings as the bytes say (the model keeps one byte of `data`). -/
example {a : Nat} (ha : a = 8 ∨ a = 16) {p : Pool} (hr : PoolInRange p.header) (tables : Bytes) :
    castMining a (poolBytes a p.header ++ tables) =
      { (env.poolAsMining p).header with data := p.index / 2 ^ 72 } ∧
    (env.poolAsMining p).accountType = p.index / 2 ^ 72 % 256 := by
  rw [C49_pool_as_mining ha hr]
  exact ⟨rfl, rfl⟩

end Demo
end Verif
