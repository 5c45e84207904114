import Verif.Spec.Idl
import Verif.Lemmas.Clients
/-!
Helpers for C79.
-/

namespace Verif

open Spec

set_option linter.unusedSimpArgs false

theorem idl_period {v : IdlVal} (h : HasType (.defined "LockupPeriod") v) : ∃ l : LockupPeriod,
    v = .variant (periodName l) ∧ IdlType.encode (.defined "LockupPeriod") v = writePeriod l := by
  cases v <;> try exact h.elim
  rename_i s
  obtain ⟨vs, h1, h2⟩ := h
  have : vs = ["None", "Flex", "ThreeMonths", "SixMonths", "OneYear"] := by
    have h3 : idlEnums.lookup "LockupPeriod" = some ["None", "Flex", "ThreeMonths", "SixMonths", "OneYear"] := by decide
    rw [h3] at h1
    exact (Option.some.inj h1).symm
  subst this
  simp only [List.mem_cons, List.not_mem_nil, or_false] at h2
  rcases h2 with rfl | rfl | rfl | rfl | rfl
  · exact ⟨.none, rfl, by decide⟩
  · exact ⟨.flex, rfl, by decide⟩
  · exact ⟨.threeMonths, rfl, by decide⟩
  · exact ⟨.sixMonths, rfl, by decide⟩
  · exact ⟨.oneYear, rfl, by decide⟩

theorem idl_u64 {v : IdlVal} (h : HasType .u64 v) : ∃ n, v = .num n ∧ n < 2 ^ 64 := by
  cases v <;> first | exact ⟨_, rfl, h⟩ | exact h.elim

theorem idl_key {v : IdlVal} (h : HasType .publicKey v) : ∃ n, v = .num n ∧ n < 2 ^ 256 := by
  cases v <;> first | exact ⟨_, rfl, h⟩ | exact h.elim

theorem idl_opt {v : IdlVal} (h : HasType (.option .u64) v) : ∃ o : Option Nat, v = optVal o ∧
    (∀ x, o = some x → x < 2 ^ 64) ∧ IdlType.encode (.option .u64) v = writeOptU64 o := by
  cases v with
  | num => exact h.elim
  | variant => exact h.elim
  | none => exact ⟨none, rfl, by simp, rfl⟩
  | some v =>
    obtain ⟨n, rfl, hn⟩ := idl_u64 (v := v) h
    exact ⟨some n, rfl, by simpa using hn, rfl⟩

theorem idl_cons {a : String × IdlType} {as : List (String × IdlType)} {vs : List IdlVal} (h : HasTypes (a :: as) vs) :
    ∃ v r, vs = v :: r ∧ HasType a.2 v ∧ HasTypes as r := by
  cases vs with
  | nil => exact h.elim
  | cons v r => exact ⟨v, r, rfl, h.1, h.2⟩

theorem idl_nil {vs : List IdlVal} (h : HasTypes [] vs) : vs = [] := by
  cases vs with
  | nil => rfl
  | cons => exact h.elim

theorem hasType_period (l : LockupPeriod) : HasType (.defined "LockupPeriod") (.variant (periodName l)) :=
  ⟨["None", "Flex", "ThreeMonths", "SixMonths", "OneYear"], by decide, by cases l <;> decide⟩

theorem encode_period (l : LockupPeriod) :
    IdlType.encode (.defined "LockupPeriod") (.variant (periodName l)) = writePeriod l := by
  cases l <;> decide

theorem encode_u64 (n : Nat) : IdlType.encode .u64 (.num n) = toLE 8 n := rfl
theorem encode_key (n : Nat) : IdlType.encode .publicKey (.num n) = toLE 32 n := rfl

theorem encode_opt (o : Option Nat) : IdlType.encode (.option .u64) (optVal o) = writeOptU64 o := by
  cases o <;> rfl

local macro "enc" : tactic => `(tactic|
  simp only [idlInstructions, List.getElem_cons_succ, List.getElem_cons_zero, ixFields, IdlInstruction.encode,
    List.zip_cons_cons, List.zip_nil_left, List.map_cons, List.map_nil, List.flatten_cons, List.flatten_nil, encode_u64,
    encode_key, encode_opt, encode_period, encodeIx, writeU8, writeU64, writeKey, List.append_assoc, List.append_nil])

theorem idl_data {e : IdlInstruction} (he : e ∈ idlInstructions) {vs : List IdlVal} (h : HasTypes e.args vs) :
    ∃ i, decodeIx (e.encode vs) = some i ∧ ixName i = e.name ∧ ixFields i = (e.args.map (·.1)).zip vs := by
  simp only [idlInstructions, List.mem_cons, List.not_mem_nil, or_false] at he
  rcases he with rfl | rfl | rfl | rfl | rfl | rfl | rfl | rfl | rfl | rfl | rfl | rfl
  · obtain ⟨v1, r1, rfl, h1, h⟩ := idl_cons h
    obtain ⟨v2, r2, rfl, h2, h⟩ := idl_cons h
    cases idl_nil h
    obtain ⟨x1, rfl, b1⟩ := idl_key h1
    obtain ⟨x2, rfl, b2⟩ := idl_key h2
    refine ⟨.initializePool x1 x2, decodeIx_iff.mpr ⟨?_, ⟨b1, b2⟩⟩, rfl, rfl⟩
    enc
  · obtain ⟨v1, r1, rfl, h1, h⟩ := idl_cons h
    obtain ⟨v2, r2, rfl, h2, h⟩ := idl_cons h
    cases idl_nil h
    obtain ⟨x1, rfl, b1⟩ := idl_u64 h1
    obtain ⟨x2, rfl, b2⟩ := idl_u64 h2
    refine ⟨.fillVault x1 x2, decodeIx_iff.mpr ⟨?_, ⟨b1, b2⟩⟩, rfl, rfl⟩
    enc
  · obtain ⟨v1, r1, rfl, h1, h⟩ := idl_cons h
    cases idl_nil h
    obtain ⟨x1, rfl, b1⟩ := idl_key h1
    refine ⟨.initializeMining x1, decodeIx_iff.mpr ⟨?_, b1⟩, rfl, rfl⟩
    enc
  · obtain ⟨v1, r1, rfl, h1, h⟩ := idl_cons h
    obtain ⟨v2, r2, rfl, h2, h⟩ := idl_cons h
    obtain ⟨v3, r3, rfl, h3, h⟩ := idl_cons h
    obtain ⟨v4, r4, rfl, h4, h⟩ := idl_cons h
    cases idl_nil h
    obtain ⟨x1, rfl, b1⟩ := idl_u64 h1
    obtain ⟨x2, rfl, -⟩ := idl_period h2
    obtain ⟨x3, rfl, b3⟩ := idl_key h3
    obtain ⟨x4, rfl, b4⟩ := idl_key h4
    refine ⟨.depositMining x1 x2 x3 x4, decodeIx_iff.mpr ⟨?_, ⟨b1, b3, b4⟩⟩, rfl, rfl⟩
    enc
  · obtain ⟨v1, r1, rfl, h1, h⟩ := idl_cons h
    obtain ⟨v2, r2, rfl, h2, h⟩ := idl_cons h
    obtain ⟨v3, r3, rfl, h3, h⟩ := idl_cons h
    cases idl_nil h
    obtain ⟨x1, rfl, b1⟩ := idl_u64 h1
    obtain ⟨x2, rfl, b2⟩ := idl_key h2
    obtain ⟨x3, rfl, b3⟩ := idl_key h3
    refine ⟨.withdrawMining x1 x2 x3, decodeIx_iff.mpr ⟨?_, ⟨b1, b2, b3⟩⟩, rfl, rfl⟩
    enc
  · cases idl_nil h
    refine ⟨.claim, decodeIx_iff.mpr ⟨?_, trivial⟩, rfl, rfl⟩
    enc
  · obtain ⟨v1, r1, rfl, h1, h⟩ := idl_cons h
    obtain ⟨v2, r2, rfl, h2, h⟩ := idl_cons h
    obtain ⟨v3, r3, rfl, h3, h⟩ := idl_cons h
    obtain ⟨v4, r4, rfl, h4, h⟩ := idl_cons h
    obtain ⟨v5, r5, rfl, h5, h⟩ := idl_cons h
    obtain ⟨v6, r6, rfl, h6, h⟩ := idl_cons h
    obtain ⟨v7, r7, rfl, h7, h⟩ := idl_cons h
    cases idl_nil h
    obtain ⟨x1, rfl, -⟩ := idl_period h1
    obtain ⟨x2, rfl, -⟩ := idl_period h2
    obtain ⟨x3, rfl, b3⟩ := idl_u64 h3
    obtain ⟨x4, rfl, b4⟩ := idl_u64 h4
    obtain ⟨x5, rfl, b5⟩ := idl_u64 h5
    obtain ⟨x6, rfl, b6⟩ := idl_key h6
    obtain ⟨x7, rfl, b7⟩ := idl_key h7
    refine ⟨.extendStake x1 x2 x3 x4 x5 x6 x7, decodeIx_iff.mpr ⟨?_, ⟨b3, b4, b5, b6, b7⟩⟩, rfl, rfl⟩
    enc
  · cases idl_nil h
    refine ⟨.distributeRewards, decodeIx_iff.mpr ⟨?_, trivial⟩, rfl, rfl⟩
    enc
  · cases idl_nil h
    refine ⟨.closeMining, decodeIx_iff.mpr ⟨?_, trivial⟩, rfl, rfl⟩
    enc
  · obtain ⟨v1, r1, rfl, h1, h⟩ := idl_cons h
    obtain ⟨v2, r2, rfl, h2, h⟩ := idl_cons h
    cases idl_nil h
    obtain ⟨x1, rfl, b1⟩ := idl_u64 h1
    obtain ⟨x2, rfl, b2⟩ := idl_key h2
    refine ⟨.changeDelegate x1 x2, decodeIx_iff.mpr ⟨?_, ⟨b1, b2⟩⟩, rfl, rfl⟩
    enc
  · obtain ⟨v1, r1, rfl, h1, h⟩ := idl_cons h
    obtain ⟨v2, r2, rfl, h2, h⟩ := idl_cons h
    obtain ⟨v3, r3, rfl, h3, h⟩ := idl_cons h
    obtain ⟨v4, r4, rfl, h4, h⟩ := idl_cons h
    cases idl_nil h
    obtain ⟨x1, rfl, b1⟩ := idl_key h1
    obtain ⟨x2, rfl, b2⟩ := idl_u64 h2
    obtain ⟨x3, rfl, b3⟩ := idl_u64 h3
    obtain ⟨x4, rfl, b4, -⟩ := idl_opt h4
    refine ⟨.slash x1 x2 x3 x4, decodeIx_iff.mpr ⟨?_, ⟨b1, b2, b3, b4⟩⟩, rfl, rfl⟩
    enc
  · obtain ⟨v1, r1, rfl, h1, h⟩ := idl_cons h
    obtain ⟨v2, r2, rfl, h2, h⟩ := idl_cons h
    cases idl_nil h
    obtain ⟨x1, rfl, b1⟩ := idl_key h1
    obtain ⟨x2, rfl, b2⟩ := idl_u64 h2
    refine ⟨.decreaseRewards x1 x2, decodeIx_iff.mpr ⟨?_, ⟨b1, b2⟩⟩, rfl, rfl⟩
    enc

theorem hasType_opt {o : Option Nat} (h : ∀ x, o = some x → x < 2 ^ 64) : HasType (.option .u64) (optVal o) := by
  cases o with
  | none => trivial
  | some n => exact h n rfl

theorem idl_complete {i : Ix} (h : InRange i) : ∃ e ∈ idlInstructions, e.name = ixName i ∧
    e.args.map (·.1) = (ixFields i).map (·.1) ∧ HasTypes e.args ((ixFields i).map (·.2)) ∧
    e.encode ((ixFields i).map (·.2)) = encodeIx i := by
  have mem : ∀ k (hk : k < 12), idlInstructions[k]'hk ∈ idlInstructions := fun k hk => List.getElem_mem _
  cases i
  case initializePool => refine ⟨_, mem 0 (by decide), rfl, rfl, ⟨h.1, h.2, trivial⟩, ?_⟩; enc
  case fillVault => refine ⟨_, mem 1 (by decide), rfl, rfl, ⟨h.1, h.2, trivial⟩, ?_⟩; enc
  case initializeMining => refine ⟨_, mem 2 (by decide), rfl, rfl, ⟨h, trivial⟩, ?_⟩; enc
  case depositMining => refine ⟨_, mem 3 (by decide), rfl, rfl, ⟨h.1, hasType_period _, h.2.1, h.2.2, trivial⟩, ?_⟩; enc
  case withdrawMining => refine ⟨_, mem 4 (by decide), rfl, rfl, ⟨h.1, h.2.1, h.2.2, trivial⟩, ?_⟩; enc
  case claim => refine ⟨_, mem 5 (by decide), rfl, rfl, trivial, ?_⟩; enc
  case extendStake => refine ⟨_, mem 6 (by decide), rfl, rfl, ⟨hasType_period _, hasType_period _, h.1, h.2.1, h.2.2.1, h.2.2.2.1, h.2.2.2.2, trivial⟩, ?_⟩; enc
  case distributeRewards => refine ⟨_, mem 7 (by decide), rfl, rfl, trivial, ?_⟩; enc
  case closeMining => refine ⟨_, mem 8 (by decide), rfl, rfl, trivial, ?_⟩; enc
  case changeDelegate => refine ⟨_, mem 9 (by decide), rfl, rfl, ⟨h.1, h.2, trivial⟩, ?_⟩; enc
  case slash => refine ⟨_, mem 10 (by decide), rfl, rfl, ⟨h.1, h.2.1, h.2.2.1, hasType_opt h.2.2.2, trivial⟩, ?_⟩; enc
  case decreaseRewards => refine ⟨_, mem 11 (by decide), rfl, rfl, ⟨h.1, h.2, trivial⟩, ?_⟩; enc

end Verif
