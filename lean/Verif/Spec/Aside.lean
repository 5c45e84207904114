import Verif.Spec.Claims
/-!
Specification vocabulary for histories that differ in the penalties and the claims of one staker.
-/

namespace Verif.Spec

/-- A claim from the mining at `k`, or a penalty on it. -/
def AffairOf (k : Key) : Event → Prop
  | .ix accs .claim => miningArg accs .claim = some k
  | .ix accs (.decreaseRewards o n) => miningArg accs (.decreaseRewards o n) = some k
  | _ => False

/-- Two histories that differ only in claims from the mining at `k` and in penalties on it, which either of them can contain
anywhere, with any amounts; everything else happens in both, and what succeeds in one succeeds in the other. -/
inductive UpToAffairs (env : Env) (k : Key) : Chain → Chain → List Event → List Event → Prop
  | done {s t : Chain} : UpToAffairs env k s t [] []
  | both {s t : Chain} {e e' : Event} {es es' : List Event} (same : SameButTokens env k e e')
      (alike : goesThrough env s e = goesThrough env t e')
      (rest : UpToAffairs env k (s.apply env e) (t.apply env e') es es') : UpToAffairs env k s t (e :: es) (e' :: es')
  | first {s t : Chain} {e : Event} {es es' : List Event} (affair : AffairOf k e)
      (rest : UpToAffairs env k (s.apply env e) t es es') : UpToAffairs env k s t (e :: es) es'
  | second {s t : Chain} {e : Event} {es es' : List Event} (affair : AffairOf k e)
      (rest : UpToAffairs env k s (t.apply env e) es es') : UpToAffairs env k s t es (e :: es')

/-- A clean event that does not close the mining at `k`. -/
def Unclosed (env : Env) (k : Key) (s : Chain) (e : Event) : Prop :=
  CleanEvent env s e ∧ match e with
    | .ix accs i => succeeded env s accs i = true → miningArg accs i = some k → i ≠ .closeMining
    | _ => True

/-- Two minings of the same owner in the same pool with the same stake delegated to them; stake, rewards and everything else they
have can differ. -/
structure SameHolder (m n : Mining) : Prop where
  pool : m.rewardPool = n.rewardPool
  owner : m.owner = n.owner
  others : m.stakeFromOthers = n.stakeFromOthers
  kind : m.accountType = n.accountType

end Verif.Spec
