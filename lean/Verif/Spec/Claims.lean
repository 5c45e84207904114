import Verif.Spec.Incentive
import Verif.Spec.Life
/-!
Specification vocabulary for histories that differ in the claims of one staker.
-/

namespace Verif.Spec

/-- A claim from the mining at `k`. -/
def ClaimOf (k : Key) : Event → Prop
  | .ix accs .claim => miningArg accs .claim = some k
  | _ => False

/-- Two accounts are the same, or both belong to the token program. -/
def SameOrTokens (env : Env) (a b : Account) : Prop :=
  a = b ∨ a.owner = env.tokenProgram ∧ b.owner = env.tokenProgram

/-- Two events are the same, except for what other programs do to token accounts. -/
def SameButTokens (env : Env) (k : Key) (e e' : Event) : Prop :=
  e = e' ∨ ∃ w w', e = .ext w ∧ e' = .ext w' ∧ (∀ j, j ≠ k → SameOrTokens env (w j) (w' j)) ∧
    (w k).lamports = (w' k).lamports

/-- Two histories that differ only in claims from the mining at `k`, which either of them can contain anywhere; everything else
happens in both, and what succeeds in one succeeds in the other. -/
inductive UpToClaims (env : Env) (k : Key) : Chain → Chain → List Event → List Event → Prop
  | done {s t : Chain} : UpToClaims env k s t [] []
  | both {s t : Chain} {e e' : Event} {es es' : List Event} (same : SameButTokens env k e e')
      (alike : goesThrough env s e = goesThrough env t e')
      (rest : UpToClaims env k (s.apply env e) (t.apply env e') es es') : UpToClaims env k s t (e :: es) (e' :: es')
  | first {s t : Chain} {e : Event} {es es' : List Event} (claim : ClaimOf k e)
      (rest : UpToClaims env k (s.apply env e) t es es') : UpToClaims env k s t (e :: es) es'
  | second {s t : Chain} {e : Event} {es es' : List Event} (claim : ClaimOf k e)
      (rest : UpToClaims env k s (t.apply env e) es es') : UpToClaims env k s t es (e :: es')

/-- A clean event that neither closes nor penalizes the mining at `k`. -/
def Unharmed (env : Env) (k : Key) (s : Chain) (e : Event) : Prop :=
  CleanEvent env s e ∧ match e with
    | .ix accs i => succeeded env s accs i = true → miningArg accs i = some k →
        i ≠ .closeMining ∧ ∀ o n, i ≠ .decreaseRewards o n
    | _ => True

end Verif.Spec
