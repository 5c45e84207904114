import Verif.Model.Transactions
import Verif.Spec.Incentive
/-!
Specification vocabulary for histories of transactions.
-/

namespace Verif.Spec

/-- The event that an action amounts to, if it succeeds. -/
def Action.event : Action → Option Event
  | .call accs data => (decodeIx data).map (.ix accs)
  | .other w => some (.ext w)
  | .abort => none

/-- `P` holds of every action in the state in which it is executed; actions after a failed one are not executed. -/
def Along (env : Env) (P : Chain → Event → Prop) (now : Nat) : World → List Action → Prop
  | _, [] => True
  | w, a :: as =>
    (∀ e, Action.event a = some e → P ⟨now, w⟩ e) ∧ ∀ w', runAction env now w a = some w' → Along env P now w' as

/-- The transaction succeeds. -/
def TxSucceeds (env : Env) (s : Chain) (as : List Action) : Prop := ∃ w, runActions env s.now s.world as = some w

instance (env : Env) (s : Chain) (as : List Action) : Decidable (TxSucceeds env s as) :=
  match h : runActions env s.now s.world as with
  | some w => isTrue ⟨w, h⟩
  | none => isFalse fun ⟨_, h'⟩ => by rw [h] at h'; cases h'

/-- What can happen: by the rules of the runtime (`Event.Valid`). -/
def Possible (env : Env) (s : Chain) : Moment → Prop
  | .tx as => Along env (fun s e => e.Valid env s) s.now s.world as
  | .tick _ => True
  | .gc k => (s.world k).lamports = 0

/-- What takes effect satisfies `C`. -/
def Meets (env : Env) (C : Chain → Event → Prop) (s : Chain) : Moment → Prop
  | .tx as => TxSucceeds env s as → Along env C s.now s.world as
  | .tick d => C s (.tick d)
  | .gc k => C s (.gc k)

/-- Histories of transactions in which everything that takes effect satisfies `C`. -/
inductive TxRuns (env : Env) (C : Chain → Event → Prop) : Chain → List Moment → Chain → Prop
  | nil (s : Chain) : TxRuns env C s [] s
  | cons {s s' : Chain} {m : Moment} {ms : List Moment} :
      Possible env s m → Meets env C s m → TxRuns env C (s.after env m) ms s' → TxRuns env C s (m :: ms) s'

/-- The events of what takes effect: all actions of a successful transaction, nothing of a failed one. -/
def eventsOf (env : Env) (s : Chain) : Moment → List Event
  | .tx as => if TxSucceeds env s as then as.filterMap Action.event else []
  | .tick d => [.tick d]
  | .gc k => [.gc k]

/-- The events of a history of transactions. -/
def allEvents (env : Env) : Chain → List Moment → List Event
  | _, [] => []
  | s, m :: ms => eventsOf env s m ++ allEvents env (s.after env m) ms

/-- An event as a transaction of its own. -/
def alone : Event → Moment
  | .ix accs i => .tx [.call accs (encodeIx i)]
  | .ext w => .tx [.other w]
  | .tick d => .tick d
  | .gc k => .gc k

end Verif.Spec
