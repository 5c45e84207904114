import Verif.Model.Codec
import Verif.Spec.Codec
/-!
The deserializers accept exactly the encodings.
-/

namespace Verif

theorem toLE_length (n v : Nat) : (toLE n v).length = n := by
  induction n generalizing v with
  | zero => rfl
  | succ n ih => simp [toLE, ih]

theorem fromLE_toLE {n v : Nat} (h : v < 256 ^ n) : fromLE (toLE n v) = v := by
  induction n generalizing v with
  | zero => simp at h; simp [toLE, fromLE, h]
  | succ n ih =>
    have h1 : v / 256 < 256 ^ n := by rw [Nat.pow_succ] at h; omega
    simp only [toLE, fromLE, ih h1, UInt8.toNat_ofNat']
    omega

theorem fromLE_lt (bs : Bytes) : fromLE bs < 256 ^ bs.length := by
  induction bs with
  | nil => simp [fromLE]
  | cons b bs ih =>
    have := b.toNat_lt
    simp only [fromLE, List.length_cons, Nat.pow_succ]
    omega

theorem toLE_fromLE (bs : Bytes) : toLE bs.length (fromLE bs) = bs := by
  induction bs with
  | nil => rfl
  | cons b bs ih =>
    have hb := b.toNat_lt
    have h1 : (b.toNat + 256 * fromLE bs) / 256 = fromLE bs := by omega
    have h2 : UInt8.ofNat (b.toNat + 256 * fromLE bs) = b := by
      apply UInt8.toNat_inj.mp
      rw [UInt8.toNat_ofNat']
      omega
    simp only [List.length_cons, toLE, fromLE, h1, h2, ih]

/-- `r` accepts exactly the encodings by `f` of values satisfying `ok`. -/
def Accepts {α : Type} (r : Reader α) (f : α → Bytes) (ok : α → Prop) : Prop :=
  ∀ bs v rest, r bs = some (v, rest) ↔ bs = f v ++ rest ∧ ok v

theorem readLE_accepts (n : Nat) : Accepts (readLE n) (toLE n) (· < 256 ^ n) := by
  intro bs v rest
  unfold readLE
  constructor
  · intro h
    split at h
    · rename_i hn
      simp only [Option.some.injEq, Prod.mk.injEq] at h
      obtain ⟨rfl, rfl⟩ := h
      have hl : (bs.take n).length = n := by simp [hn]
      have h1 := toLE_fromLE (bs.take n)
      have h2 := fromLE_lt (bs.take n)
      rw [hl] at h1 h2
      exact ⟨by rw [h1, List.take_append_drop], h2⟩
    · cases h
  · rintro ⟨rfl, hv⟩
    rw [if_pos (by simp [toLE_length])]
    have h1 : List.take n (toLE n v ++ rest) = toLE n v := by
      rw [List.take_append_of_le_length (by simp [toLE_length]), List.take_of_length_le (by simp [toLE_length])]
    have h2 : List.drop n (toLE n v ++ rest) = rest := by
      rw [List.drop_append_of_le_length (by simp [toLE_length]), List.drop_of_length_le (by simp [toLE_length]), List.nil_append]
    rw [h1, h2, fromLE_toLE hv]

theorem read_bind {α β : Type} {r : Reader α} {g : α → Reader β} {bs : Bytes} {x : β × Bytes} :
    (r >>= g) bs = some x ↔ ∃ a rest, r bs = some (a, rest) ∧ g a rest = some x := by
  show Reader.bind r g bs = some x ↔ _
  unfold Reader.bind
  cases h : r bs with
  | none => simp
  | some y =>
    obtain ⟨a, rest⟩ := y
    constructor
    · exact fun hg => ⟨a, rest, rfl, hg⟩
    · rintro ⟨_, _, e, hg⟩; cases e; exact hg

theorem read_pure {α : Type} {a v : α} {bs rest : Bytes} :
    (pure a : Reader α) bs = some (v, rest) ↔ a = v ∧ bs = rest := by
  show some (a, bs) = some (v, rest) ↔ _
  simp

theorem readU64_accepts : Accepts readU64 writeU64 (· < 2 ^ 64) := readLE_accepts 8
theorem readKey_accepts : Accepts readKey writeKey (· < 2 ^ 256) := readLE_accepts 32
theorem readU8_accepts : Accepts readU8 writeU8 (· < 256) := readLE_accepts 1

theorem readPeriod_accepts : Accepts readPeriod writePeriod (fun _ => True) := by
  intro bs v rest
  unfold readPeriod
  rw [read_bind]
  simp only [readU8_accepts _ _ _]
  constructor
  · rintro ⟨t, r, ⟨rfl, ht⟩, h⟩
    split at h <;> first
      | (simp only [read_pure] at h; obtain ⟨rfl, rfl⟩ := h; exact ⟨rfl, trivial⟩)
      | cases h
  · rintro ⟨rfl, -⟩
    cases v <;> exact ⟨_, rest, ⟨rfl, by decide⟩, rfl⟩

theorem readOptU64_accepts : Accepts readOptU64 writeOptU64 (fun v => ∀ x, v = some x → x < 2 ^ 64) := by
  intro bs v rest
  unfold readOptU64
  rw [read_bind]
  simp only [readU8_accepts _ _ _]
  constructor
  · rintro ⟨t, r, ⟨rfl, ht⟩, h⟩
    split at h
    · simp only [read_pure] at h; obtain ⟨rfl, rfl⟩ := h; exact ⟨rfl, fun _ h => nomatch h⟩
    · simp only [read_bind, readU64_accepts _ _ _, read_pure] at h
      obtain ⟨x, r2, ⟨rfl, hx⟩, rfl, rfl⟩ := h
      exact ⟨by simp [writeOptU64, writeU8], fun y hy => by cases hy; exact hx⟩
    · cases h
  · rintro ⟨rfl, hv⟩
    cases v with
    | none => exact ⟨0, rest, ⟨rfl, by decide⟩, rfl⟩
    | some x =>
      refine ⟨1, writeU64 x ++ rest, ⟨by simp [writeOptU64, writeU8], by decide⟩, ?_⟩
      simp only [read_bind, readU64_accepts _ _ _, read_pure]
      exact ⟨x, rest, ⟨rfl, hv x rfl⟩, rfl, rfl⟩

theorem readIx_accepts : Accepts readIx encodeIx Spec.InRange := by
  intro bs v rest
  unfold readIx
  rw [read_bind]
  simp only [readU8_accepts _ _ _]
  constructor
  · rintro ⟨t, r, ⟨rfl, ht⟩, h⟩
    split at h <;>
      simp only [read_bind, readU64_accepts _ _ _, readKey_accepts _ _ _, readPeriod_accepts _ _ _,
        readOptU64_accepts _ _ _, read_pure] at h
    · obtain ⟨_, _, ⟨rfl, h1⟩, _, _, ⟨rfl, h2⟩, rfl, rfl⟩ := h
      exact ⟨by simp [encodeIx], h1, h2⟩
    · obtain ⟨_, _, ⟨rfl, h1⟩, _, _, ⟨rfl, h2⟩, rfl, rfl⟩ := h
      exact ⟨by simp [encodeIx], h1, h2⟩
    · obtain ⟨_, _, ⟨rfl, h1⟩, rfl, rfl⟩ := h
      exact ⟨by simp [encodeIx], h1⟩
    · obtain ⟨_, _, ⟨rfl, h1⟩, _, _, ⟨rfl, -⟩, _, _, ⟨rfl, h2⟩, _, _, ⟨rfl, h3⟩, rfl, rfl⟩ := h
      exact ⟨by simp [encodeIx], h1, h2, h3⟩
    · obtain ⟨_, _, ⟨rfl, h1⟩, _, _, ⟨rfl, h2⟩, _, _, ⟨rfl, h3⟩, rfl, rfl⟩ := h
      exact ⟨by simp [encodeIx], h1, h2, h3⟩
    · obtain ⟨rfl, rfl⟩ := h
      exact ⟨rfl, trivial⟩
    · obtain ⟨_, _, ⟨rfl, -⟩, _, _, ⟨rfl, -⟩, _, _, ⟨rfl, h1⟩, _, _, ⟨rfl, h2⟩, _, _, ⟨rfl, h3⟩, _, _, ⟨rfl, h4⟩, _, _,
        ⟨rfl, h5⟩, rfl, rfl⟩ := h
      exact ⟨by simp [encodeIx], h1, h2, h3, h4, h5⟩
    · obtain ⟨rfl, rfl⟩ := h
      exact ⟨rfl, trivial⟩
    · obtain ⟨rfl, rfl⟩ := h
      exact ⟨rfl, trivial⟩
    · obtain ⟨_, _, ⟨rfl, h1⟩, _, _, ⟨rfl, h2⟩, rfl, rfl⟩ := h
      exact ⟨by simp [encodeIx], h1, h2⟩
    · obtain ⟨_, _, ⟨rfl, h1⟩, _, _, ⟨rfl, h2⟩, _, _, ⟨rfl, h3⟩, _, _, ⟨rfl, h4⟩, rfl, rfl⟩ := h
      exact ⟨by simp [encodeIx], h1, h2, h3, h4⟩
    · obtain ⟨_, _, ⟨rfl, h1⟩, _, _, ⟨rfl, h2⟩, rfl, rfl⟩ := h
      exact ⟨by simp [encodeIx], h1, h2⟩
    · cases h
  · rintro ⟨rfl, hv⟩
    cases v <;> simp only [encodeIx, List.append_assoc] <;> refine ⟨_, _, ⟨rfl, by decide⟩, ?_⟩ <;>
      simp only [read_bind, readU64_accepts _ _ _, readKey_accepts _ _ _, readPeriod_accepts _ _ _,
        readOptU64_accepts _ _ _, read_pure]
    · exact ⟨_, _, ⟨rfl, hv.1⟩, _, _, ⟨rfl, hv.2⟩, rfl, rfl⟩
    · exact ⟨_, _, ⟨rfl, hv.1⟩, _, _, ⟨rfl, hv.2⟩, rfl, rfl⟩
    · exact ⟨_, _, ⟨rfl, hv⟩, rfl, rfl⟩
    · exact ⟨_, _, ⟨rfl, hv.1⟩, _, _, ⟨rfl, trivial⟩, _, _, ⟨rfl, hv.2.1⟩, _, _, ⟨rfl, hv.2.2⟩, rfl, rfl⟩
    · exact ⟨_, _, ⟨rfl, hv.1⟩, _, _, ⟨rfl, hv.2.1⟩, _, _, ⟨rfl, hv.2.2⟩, rfl, rfl⟩
    · exact ⟨trivial, trivial⟩
    · exact ⟨_, _, ⟨rfl, trivial⟩, _, _, ⟨rfl, trivial⟩, _, _, ⟨rfl, hv.1⟩, _, _, ⟨rfl, hv.2.1⟩, _, _, ⟨rfl, hv.2.2.1⟩, _,
        _, ⟨rfl, hv.2.2.2.1⟩, _, _, ⟨rfl, hv.2.2.2.2⟩, rfl, rfl⟩
    · exact ⟨trivial, trivial⟩
    · exact ⟨trivial, trivial⟩
    · exact ⟨_, _, ⟨rfl, hv.1⟩, _, _, ⟨rfl, hv.2⟩, rfl, rfl⟩
    · exact ⟨_, _, ⟨rfl, hv.1⟩, _, _, ⟨rfl, hv.2.1⟩, _, _, ⟨rfl, hv.2.2.1⟩, _, _, ⟨rfl, hv.2.2.2⟩, rfl, rfl⟩
    · exact ⟨_, _, ⟨rfl, hv.1⟩, _, _, ⟨rfl, hv.2⟩, rfl, rfl⟩

theorem decodeIx_iff {bs : Bytes} {i : Ix} : decodeIx bs = some i ↔ bs = encodeIx i ∧ Spec.InRange i := by
  have h := readIx_accepts bs i []
  rw [List.append_nil] at h
  rw [← h]
  unfold decodeIx
  constructor
  · intro h
    split at h
    · rename_i j e; cases h; exact e
    · cases h
  · intro h; rw [h]

end Verif
