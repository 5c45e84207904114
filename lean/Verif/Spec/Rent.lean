import Verif.Spec.World
/-!
Vocabulary for C121: the runtime's rent rule, which every transaction must satisfy when it ends
(`check_rent_state` of the Solana runtime).
-/

namespace Verif.Spec

/-- The account holds lamports, but fewer than what makes an account of its size exempt from rent. -/
def RentPaying (env : Env) (a : Account) : Prop := 0 < a.lamports ∧ a.lamports < env.rentMin a.len

/-- The runtime's rule for an account before (`a`) and after (`b`) a transaction: it may end up paying rent only if it did so before,
with the same size and without having received lamports. -/
def RentRule (env : Env) (a b : Account) : Prop :=
  RentPaying env b → RentPaying env a ∧ b.len = a.len ∧ b.lamports ≤ a.lamports

/-- Who pays for the account that an instruction creates, and what for: the payer of InitializePool for the vault, the payer of
InitializeMining for the mining. -/
def paysFor (env : Env) (accs : List AccountInfo) : Ix → Option (Key × Nat)
  | .initializePool _ _ => accs[3]?.map fun a => (a.key, env.rentMin 165)
  | .initializeMining _ => accs[2]?.map fun a => (a.key, env.rentMin 1776)
  | _ => none

/-- What a sender takes care of: a payer keeps nothing or enough for an empty account; token accounts have been made exempt from
rent (as the token program demands), wrapped lamports not counted; a mining is closed in favour of an account that is exempt from rent
or not larger than a mining. -/
structure RentCare (env : Env) (w : World) (accs : List AccountInfo) (i : Ix) : Prop where
  payer : ∀ k n, paysFor env accs i = some (k, n) → (w k).lamports = n ∨ n + env.rentMin 0 ≤ (w k).lamports
  tokens : ∀ a ∈ accs, ∀ t, TokenAt env w a.key t →
    env.rentMin (w a.key).len + (if t.native = true then t.amount else 0) ≤ (w a.key).lamports
  target : i = .closeMining → ∀ a, accs[2]? = some a → (w a.key).len ≤ 1776 ∨ env.rentMin (w a.key).len ≤ (w a.key).lamports

/-- The instructions of a transaction, each of which is sent with care. -/
def RentCareAll (env : Env) (now : Nat) (w : World) : List (List AccountInfo × Ix) → Prop
  | [] => True
  | (accs, i) :: rest => RentCare env w accs i ∧ ∀ w' ret, exec env now w accs i = .ok (w', ret) → RentCareAll env now w' rest

/-- An event of a history in which everybody else keeps to the rent rule, and instructions of the program are sent with care. -/
def RentEvent (env : Env) (s : Chain) : Event → Prop
  | .ix accs i => RentCare env s.world accs i
  | .ext w => ∀ k, RentRule env (s.world k) (w k)
  | _ => True

end Verif.Spec
