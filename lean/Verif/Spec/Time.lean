import Verif.Spec.World
/-!
Vocabulary for C82: moments of one day, and histories that differ only in the times of day.
-/

namespace Verif.Spec

/-- Two moments of the same UTC day, neither of them exactly midnight. -/
structure SameDay (t t' : Nat) : Prop where
  day : t / 86400 = t' / 86400
  after : 0 < t % 86400
  after' : 0 < t' % 86400

/-- Two lists of events, beginning at the times `t` and `t'`: the same events in the same order, every instruction on the
same day (and not exactly at midnight) in both.  The clock may advance in different steps. -/
inductive SameDays : (t t' : Nat) → List Event → List Event → Prop
  | nil (t t' : Nat) : SameDays t t' [] []
  | ix {t t' : Nat} {accs : List AccountInfo} {i : Ix} {es es' : List Event} :
      SameDay t t' → SameDays t t' es es' → SameDays t t' (.ix accs i :: es) (.ix accs i :: es')
  | gc {t t' : Nat} {k : Key} {es es' : List Event} :
      SameDays t t' es es' → SameDays t t' (.gc k :: es) (.gc k :: es')
  | ext {t t' : Nat} {w : World} {es es' : List Event} :
      SameDays t t' es es' → SameDays t t' (.ext w :: es) (.ext w :: es')
  | wait {t t' d : Nat} {es es' : List Event} :
      SameDays (t + d) t' es es' → SameDays t t' (.tick d :: es) es'
  | wait' {t t' d : Nat} {es es' : List Event} :
      SameDays t (t' + d) es es' → SameDays t t' es (.tick d :: es')

end Verif.Spec
