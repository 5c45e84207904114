import Verif.Lemmas.Idl
import Verif.Props.Clients
import Verif.Props.Layout
import Verif.Model.Errors
/-!
C79: the published interface description describes the program.
-/

namespace Verif

open Spec

/-- C79: data built from an entry of the description and arguments of the described types is decoded by the program to the
instruction of that name, with the arguments in the fields of these names. -/
theorem C79_data {e : IdlInstruction} (he : e ∈ idlInstructions) {vs : List IdlVal} (h : HasTypes e.args vs) :
    ∃ i, decodeIx (e.encode vs) = some i ∧ ixName i = e.name ∧ ixFields i = (e.args.map (·.1)).zip vs :=
  idl_data he h

/-- C79: every instruction can be sent by the description: it has exactly one entry, and the data built from it is what the
program's own serialization gives. -/
theorem C79_complete {i : Ix} (h : InRange i) : ∃ e ∈ idlInstructions, e.name = ixName i ∧
    (∀ e' ∈ idlInstructions, e'.name = ixName i → e' = e) ∧
    e.args.map (·.1) = (ixFields i).map (·.1) ∧ HasTypes e.args ((ixFields i).map (·.2)) ∧
    e.encode ((ixFields i).map (·.2)) = encodeIx i := by
  obtain ⟨e, h1, h2, h3, h4, h5⟩ := idl_complete h
  refine ⟨e, h1, h2, ?_, h3, h4, h5⟩
  intro e' h1' h2'
  have : ∀ x ∈ idlInstructions, ∀ y ∈ idlInstructions, x.name = y.name → x = y := by decide
  exact this _ h1' _ h1 (h2'.trans h2.symm)

/-- C79: the accounts of the description are those of the generated clients, with the same privileges. -/
theorem C79_accounts {env : Env} {n : Names} {e : IdlInstruction} (he : e ∈ idlInstructions) {i : Ix} (hi : e.name = ixName i) :
    describedAccounts env n e = (clientMetas env n i).map some := by
  simp only [idlInstructions, List.mem_cons, List.not_mem_nil, or_false] at he
  rcases he with rfl | rfl | rfl | rfl | rfl | rfl | rfl | rfl | rfl | rfl | rfl | rfl <;> cases i <;>
    first | rfl | (exfalso; simp [ixName] at hi; done)

/-- C79, accounts: the description asks for the accounts the program's own builders pass, in the same order and with the same
privileges, for exactly eight of the twelve instructions; the wrong ones are DepositMining, WithdrawMining, ExtendStake and
CloseMining (what this leads to is C48). -/
theorem C79_accounts_partial {env : Env} {n : Names} {e : IdlInstruction} (he : e ∈ idlInstructions) {i : Ix}
    (hi : e.name = ixName i) :
    describedAccounts env n e = (crateMetas env n i).map some ↔
      ¬ (e.name = "DepositMining" ∨ e.name = "WithdrawMining" ∨ e.name = "ExtendStake" ∨ e.name = "CloseMining") := by
  rw [C79_accounts he hi, hi]
  cases i <;> simp [clientMetas, crateMetas, ixName, readonlyMeta, writableMeta]

/-- C79: a mining account read by the description, field after field, gives the mining the program sees in these bytes; bytes that
are too short give nothing.  (`a`: alignment of 128-bit numbers.) -/
theorem C79_mining {a : Nat} (ha : a = 8 ∨ a = 16) (bs : Bytes) : ∃ fs, idlAccounts.lookup "Mining" = some fs ∧
    idlRead fs bs = if 144 ≤ bs.length then some (miningNamed (castMining a bs), bs.drop 144) else none := by
  refine ⟨_, rfl, ?_⟩
  refine Eq.trans (b := (clientMining bs).map fun x => (miningNamed x.1, x.2)) ?_ ?_
  · simp only [idlRead, IdlType.width, clientMining, bind, Reader.bind, pure, Reader.pure, Nat.reduceMul]
    rcases readLE 32 bs with _ | ⟨x1, b1⟩
    · rfl
    dsimp only
    rcases readLE 32 b1 with _ | ⟨x2, b2⟩
    · rfl
    dsimp only
    rcases readLE 32 b2 with _ | ⟨x3, b3⟩
    · rfl
    dsimp only
    rcases readLE 16 b3 with _ | ⟨x4, b4⟩
    · rfl
    dsimp only
    rcases readLE 8 b4 with _ | ⟨x5, b5⟩
    · rfl
    dsimp only
    rcases readLE 8 b5 with _ | ⟨x6, b6⟩
    · rfl
    dsimp only
    rcases readLE 8 b6 with _ | ⟨x7, b7⟩
    · rfl
    dsimp only
    rcases readLE 1 b7 with _ | ⟨x8, b8⟩
    · rfl
    dsimp only
    rcases readLE 7 b8 with _ | ⟨x9, b9⟩
    · rfl
    dsimp only
    rfl
  · rw [C49_mining_agree ha]
    split <;> rfl

/-- C79: the same for pools. -/
theorem C79_pool {a : Nat} (ha : a = 8 ∨ a = 16) (bs : Bytes) : ∃ fs, idlAccounts.lookup "RewardPool" = some fs ∧
    idlRead fs bs = if 176 ≤ bs.length then some (poolNamed (castPool a bs), bs.drop 176) else none := by
  refine ⟨_, rfl, ?_⟩
  refine Eq.trans (b := (clientPool bs).map fun x => (poolNamed x.1, x.2)) ?_ ?_
  · simp only [idlRead, IdlType.width, clientPool, bind, Reader.bind, pure, Reader.pure, Nat.reduceMul]
    rcases readLE 32 bs with _ | ⟨x1, b1⟩
    · rfl
    dsimp only
    rcases readLE 32 b1 with _ | ⟨x2, b2⟩
    · rfl
    dsimp only
    rcases readLE 32 b2 with _ | ⟨x3, b3⟩
    · rfl
    dsimp only
    rcases readLE 32 b3 with _ | ⟨x4, b4⟩
    · rfl
    dsimp only
    rcases readLE 16 b4 with _ | ⟨x5, b5⟩
    · rfl
    dsimp only
    rcases readLE 8 b5 with _ | ⟨x6, b6⟩
    · rfl
    dsimp only
    rcases readLE 8 b6 with _ | ⟨x7, b7⟩
    · rfl
    dsimp only
    rcases readLE 8 b7 with _ | ⟨x8, b8⟩
    · rfl
    dsimp only
    rcases readLE 1 b8 with _ | ⟨x9, b9⟩
    · rfl
    dsimp only
    rcases readLE 7 b9 with _ | ⟨x10, b10⟩
    · rfl
    dsimp only
    rfl
  · rw [C49_pool_agree ha]
    split <;> rfl

/-- C79: the errors of the description are the program's errors with their codes, names and messages. -/
theorem C79_errors (code : Nat) (name message : String) :
    (code, name, message) ∈ idlErrors ↔ ∃ e : RewardsErr, e.code = code ∧ e.name = name ∧ e.message = message := by
  constructor
  · intro h
    have : ∀ x ∈ idlErrors, ∃ e ∈ errorOrder, e.code = x.1 ∧ e.name = x.2.1 ∧ e.message = x.2.2 := by decide
    obtain ⟨e, -, h⟩ := this _ h
    exact ⟨e, h⟩
  · rintro ⟨e, rfl, rfl, rfl⟩
    cases e <;> decide

/-! ### Examples -/

namespace Demo

/-- Arguments for ExtendStake by the description. -/
def someArgs : List IdlVal :=
  [.variant "ThreeMonths", .variant "OneYear", .num 1700000000, .num 500, .num 20, .num (2 ^ 255 + 1), .num 7]

example : ∃ e ∈ idlInstructions, e.name = "ExtendStake" ∧ HasTypes e.args someArgs ∧
    decodeIx (e.encode someArgs) = some (.extendStake .threeMonths .oneYear 1700000000 500 20 (2 ^ 255 + 1) 7) := by
  refine ⟨idlInstructions[6], List.getElem_mem _, rfl, ?_, by decide +kernel⟩
  have hp : ∀ s ∈ ["None", "Flex", "ThreeMonths", "SixMonths", "OneYear"], HasType (.defined "LockupPeriod") (.variant s) :=
    fun s hs => ⟨_, by decide, hs⟩
  exact ⟨hp _ (by decide), hp _ (by decide), (by decide : 1700000000 < 2 ^ 64), (by decide : 500 < 2 ^ 64),
    (by decide : 20 < 2 ^ 64), (by decide : 2 ^ 255 + 1 < 2 ^ 256), (by decide : 7 < 2 ^ 256), trivial⟩

example : InRange (.slash (2 ^ 255 + 1) 10 20 (some 86400)) := by
  refine ⟨by decide, by decide, by decide, ?_⟩
  intro x h
  cases h
  decide

/-- Both sides of the account theorem occur. -/
example : ∃ e ∈ idlInstructions, e.name = ixName .claim ∧
    ¬ (e.name = "DepositMining" ∨ e.name = "WithdrawMining" ∨ e.name = "ExtendStake" ∨ e.name = "CloseMining") :=
  ⟨idlInstructions[5], List.getElem_mem _, rfl, by decide⟩
example : ∃ e ∈ idlInstructions, e.name = ixName .closeMining ∧
    (e.name = "DepositMining" ∨ e.name = "WithdrawMining" ∨ e.name = "ExtendStake" ∨ e.name = "CloseMining") :=
  ⟨idlInstructions[8], List.getElem_mem _, rfl, by decide⟩

example : (4, "DistributionInThePast", RewardsErr.distributionInThePast.message) ∈ idlErrors := by decide

end Demo
end Verif
