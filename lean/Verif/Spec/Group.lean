import Verif.Spec.Aside
/-!
Specification vocabulary for histories that differ in what a group of stakers does among themselves.
-/

namespace Verif.Spec

/-- All minings an instruction names belong to the group `K`. -/
def Inside (K : List Key) (accs : List AccountInfo) (i : Ix) : Prop :=
  ∀ j, miningArg accs i = some j ∨ delegateArg accs i = some j ∨ oldDelegateArg accs i = some j → j ∈ K

/-- Two instructions that do the same to a stake: they differ at most in whose stake it is and in whom it is delegated to. -/
def SameTerms : Ix → Ix → Prop
  | .depositMining a l _ _, .depositMining a' l' _ _ => a = a' ∧ l = l'
  | .withdrawMining a _ _, .withdrawMining a' _ _ => a = a'
  | .extendStake ol nl ts b a _ _, .extendStake ol' nl' ts' b' a' _ _ => ol = ol' ∧ nl = nl' ∧ ts = ts' ∧ b = b' ∧ a = a'
  | .slash _ n mu ex, .slash _ n' mu' ex' => n = n' ∧ mu = mu' ∧ ex = ex'
  | .changeDelegate a _, .changeDelegate a' _ => a = a'
  | _, _ => False

/-- An instruction on one member's stake takes the place of the same instruction on another member's stake: of the same pool and
on the same terms, and both times the stake is (or was) delegated to another member, or neither time. -/
def InPlaceOf (K : List Key) (e e' : Event) : Prop :=
  ∃ accs accs' i i', e = .ix accs i ∧ e' = .ix accs' i' ∧ SameTerms i i' ∧ Inside K accs i ∧ Inside K accs' i' ∧
    poolArg accs i = poolArg accs' i' ∧
    (miningArg accs i = delegateArg accs i ↔ miningArg accs' i' = delegateArg accs' i') ∧
    (miningArg accs i = oldDelegateArg accs i ↔ miningArg accs' i' = oldDelegateArg accs' i')

/-- Two events are the same, except for what other programs do to token accounts. -/
def SameOutside (env : Env) (K : List Key) (e e' : Event) : Prop :=
  e = e' ∨ ∃ w w', e = .ext w ∧ e' = .ext w' ∧ (∀ j, j ∉ K → SameOrTokens env (w j) (w' j)) ∧
    ∀ j, j ∈ K → (w j).lamports = (w' j).lamports

/-- What members of the group `K` do among themselves: a claim, a penalty, or a change of the delegate of a member's stake from
another member to a third. -/
def AmongThem (K : List Key) : Event → Prop
  | .ix accs .claim => ∃ k ∈ K, miningArg accs .claim = some k
  | .ix accs (.decreaseRewards o n) => ∃ k ∈ K, miningArg accs (.decreaseRewards o n) = some k
  | .ix accs (.changeDelegate a d) => Inside K accs (.changeDelegate a d) ∧
      miningArg accs (.changeDelegate a d) ≠ oldDelegateArg accs (.changeDelegate a d) ∧
      miningArg accs (.changeDelegate a d) ≠ delegateArg accs (.changeDelegate a d)
  | _ => False

/-- Two histories that differ only in what members of the group `K` do among themselves, which either of them can contain
anywhere, and in which of them stakes, to whom among them a stake is delegated, and so on; everything else happens in both, and
what succeeds in one succeeds in the other. -/
inductive UpToGroup (env : Env) (K : List Key) : Chain → Chain → List Event → List Event → Prop
  | done {s t : Chain} : UpToGroup env K s t [] []
  | both {s t : Chain} {e e' : Event} {es es' : List Event} (same : SameOutside env K e e' ∨ InPlaceOf K e e')
      (alike : goesThrough env s e = goesThrough env t e')
      (rest : UpToGroup env K (s.apply env e) (t.apply env e') es es') : UpToGroup env K s t (e :: es) (e' :: es')
  | first {s t : Chain} {e : Event} {es es' : List Event} (among : AmongThem K e)
      (rest : UpToGroup env K (s.apply env e) t es es') : UpToGroup env K s t (e :: es) es'
  | second {s t : Chain} {e : Event} {es es' : List Event} (among : AmongThem K e)
      (rest : UpToGroup env K s (t.apply env e) es es') : UpToGroup env K s t es (e :: es')

/-- A clean event that closes no mining of the group `K`. -/
def NoneClosed (env : Env) (K : List Key) (s : Chain) (e : Event) : Prop :=
  CleanEvent env s e ∧ match e with
    | .ix accs i => succeeded env s accs i = true → ∀ k ∈ K, miningArg accs i = some k → i ≠ .closeMining
    | _ => True

end Verif.Spec
