import Verif.Spec.Honest
import Verif.Spec.Distribution
/-!
Specification vocabulary for winding up a pool: every staker takes their rewards and closes their mining.
-/

namespace Verif.Spec

/-- A staker who leaves: their mining, its owner, the token account for the rewards and the wallet for the rent. -/
structure Leaver where
  mining : Key
  owner : Key
  account : Key
  wallet : Key

/-- The two instructions with which the staker `x` leaves the pool `P` with vault `V`, reward mint `T` and deposit authority
`A`: a claim and the closing of the mining, both signed by the owner and by `A`. -/
def leave (env : Env) (P V T A : Key) (x : Leaver) : List Event :=
  [.ix [⟨P, false, true⟩, ⟨T, false, true⟩, ⟨V, false, true⟩, ⟨x.mining, false, true⟩, ⟨x.owner, true, true⟩,
      ⟨A, true, true⟩, ⟨x.account, false, true⟩, ⟨env.tokenProgram, false, false⟩] .claim,
    .ix [⟨x.mining, false, true⟩, ⟨x.owner, true, true⟩, ⟨x.wallet, false, true⟩, ⟨A, true, true⟩, ⟨P, false, true⟩]
      .closeMining]

/-- The staker is in a position to leave: the mining is theirs and belongs to the pool; the token account is theirs, is for
the token of the vault, usable, and has room for everything in the vault; the wallet is a wallet. -/
structure CanLeave (env : Env) (w : World) (P V : Key) (t : TokenAcc) (x : Leaver) : Prop where
  mining : ∃ m, Member env w P x.mining m ∧ m.owner = x.owner
  owner : x.owner ≠ 0
  account : ∃ u, TokenAt env w x.account u ∧ u.owner = x.owner ∧ u.frozen = false ∧ u.mint = t.mint ∧
    t.amount + u.amount < 2 ^ 64
  other : x.account ≠ V
  notProgram : x.mining ≠ env.tokenProgram ∧ x.account ≠ env.tokenProgram
  wallet : (w x.wallet).owner = env.systemProgram

/-- A vault from which the deposit authority, whose account is no SPL multisig, can pay. -/
structure UsableVault (env : Env) (w : World) (V A : Key) (t : TokenAcc) : Prop where
  vault : TokenAt env w V t
  usable : t.frozen = false ∧ t.native = false
  owner : t.owner = A ∧ t.delegate ≠ some A
  notProgram : V ≠ env.tokenProgram
  single : ¬ ((w A).owner = env.tokenProgram ∧ (w A).len = 355)

/-- Every event is an instruction that succeeds. -/
def SucceedingEvent (env : Env) (s : Chain) : Event → Prop
  | .ix accs i => succeeded env s accs i = true
  | _ => False

/-- Lamports of the minings. -/
def rentOf (w : World) (xs : List Leaver) : Nat := (xs.map fun x => (w x.mining).lamports).sum

/-- Lamports of the minings whose rent goes to the wallet `k`. -/
def rentTo (w : World) (xs : List Leaver) (k : Key) : Nat :=
  (xs.map fun x => if x.wallet = k then (w x.mining).lamports else 0).sum

/-- What the account `k` receives if `n` says how much is paid to each mining's owner. -/
def receipts (n : Key → Nat) (xs : List Leaver) (k : Key) : Nat :=
  (xs.map fun x => if x.account = k then n x.mining else 0).sum

end Verif.Spec
