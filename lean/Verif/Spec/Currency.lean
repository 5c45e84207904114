import Verif.Spec.Access
/-!
Specification vocabulary for the token in which a pool pays (C126).
-/

namespace Verif.Spec

/-- The event leaves the account of the pool `P` in place, and token accounts at the program's derived addresses were token
accounts of the same mint before (no instruction of the SPL token program changes the mint of an account, and nobody but this
program can create an account at these addresses). -/
def KeepsToken (env : Env) (P : Key) (s : Chain) : Event → Prop
  | .gc k => k ≠ P
  | .ext w' => ∀ k t', env.IsPda k → TokenAt env w' k t' → ∃ t, TokenAt env s.world k t ∧ t.mint = t'.mint
  | _ => True

end Verif.Spec
