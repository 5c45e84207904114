import Verif.Spec.World
import Verif.Spec.Access
/-!
Specification vocabulary for where pools and minings come from.
-/

namespace Verif.Spec

/-- In the history `es` from `s` on, the instruction `i` is executed with accounts `accs` in state `s1`, successfully, with
the history `rest` following it. -/
structure Happens (env : Env) (s : Chain) (es : List Event) (s1 : Chain) (accs : List AccountInfo) (i : Ix)
    (rest : List Event) : Prop where
  split : ∃ es1, es = es1 ++ .ix accs i :: rest ∧ RunsWith env (CleanEvent env) s es1 s1
  succeeds : ∃ w ret, exec env s1.now s1.world accs i = .ok (w, ret)

/-- In the history `es` from `s` on, the mining at `k` is never closed. -/
def NeverClosed (env : Env) (s : Chain) (es : List Event) (k : Key) : Prop :=
  ∀ s1 accs rest, Happens env s es s1 accs .closeMining rest → miningArg accs .closeMining ≠ some k

end Verif.Spec
