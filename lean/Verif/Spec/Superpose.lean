import Verif.Spec.Ratio
/-!
Specification vocabulary for comparing a history with two others among which its budget is divided.
-/

namespace Verif.Spec

/-- Three events are the same, except that the amount with which a vault is filled in the first is the sum of the amounts in the
other two (and that what other programs do may differ). -/
def SharedFill (e e' e'' : Event) : Prop :=
  match e with
  | .ix accs (.fillVault r x) =>
    ∃ r' r'', e' = .ix accs (.fillVault r' x) ∧ e'' = .ix accs (.fillVault r'' x) ∧ r = r' + r''
  | .ext _ => (∃ w, e' = .ext w) ∧ ∃ w, e'' = .ext w
  | e => e' = e ∧ e'' = e

/-- Three histories, event by event: the events are the same but for the shared fillings, and the same instructions succeed. -/
def AlikeThree (env : Env) : Chain → Chain → Chain → List Event → List Event → List Event → Prop
  | _, _, _, [], [], [] => True
  | s, t, u, e :: es, e' :: es', e'' :: es'' =>
    SharedFill e e' e'' ∧ goesThrough env s e = goesThrough env t e' ∧ goesThrough env s e = goesThrough env u e'' ∧
      AlikeThree env (s.apply env e) (t.apply env e') (u.apply env e'') es es' es''
  | _, _, _, _, _, _ => False

end Verif.Spec
