import Verif.Spec.Life
/-!
Specification vocabulary for what people can do without certain signatures.
-/

namespace Verif.Spec

/-- None of the pool's three authorities signs the instruction. -/
structure NoAuthority (p : Pool) (accs : List AccountInfo) : Prop where
  deposit : ¬ Signed accs p.depositAuthority
  distribute : ¬ Signed accs p.distributeAuthority
  fill : ¬ Signed accs p.fillAuthority

/-- The two account arguments that the program does not verify (ChangeDelegate's old delegate, the pool of a CloseMining) are not
abused against the pool at `P`: its minings are passed there only by instructions for `P` itself. -/
def Unconfused (env : Env) (P : Key) (w : World) (accs : List AccountInfo) (i : Ix) : Prop :=
  ∀ k m, Member env w P k m → oldDelegateArg accs i = some k ∨ i = .closeMining ∧ miningArg accs i = some k →
    poolArg accs i = some P

/-- An event in which the authorities of the pool `p` at `P` have no part. -/
def Outside (env : Env) (P : Key) (p : Pool) (s : Chain) : Event → Prop
  | .ix accs i => NotPoolAsMining env s.world accs i ∧ NoAuthority p accs ∧ Unconfused env P s.world accs i
  | _ => True

/-- An event that the wallet `o` does not sign. -/
def NotSignedBy (env : Env) (o : Key) (s : Chain) : Event → Prop
  | .ix accs i => NotPoolAsMining env s.world accs i ∧ ¬ Signed accs o
  | _ => True

/-- An event that neither the owner nor the SPL delegate of the token account at `V` signs; outside of the program, nobody takes
tokens out of it, and it is not removed for want of lamports. -/
def NotDrawn (env : Env) (V : Key) (s : Chain) : Event → Prop
  | .ix accs i => NotPoolAsMining env s.world accs i ∧ ∀ t, TokenAt env s.world V t → ¬ Signed accs t.owner ∧
      ∀ d, t.delegate = some d → ¬ Signed accs d
  | .tick _ => True
  | .gc k => k ≠ V
  | .ext w' => (∃ t, TokenAt env w' V t) ∧ balance s.world V ≤ balance w' V

end Verif.Spec
