import Verif.Spec.Ledger
import Verif.Spec.Life
/-!
Specification vocabulary for what the stakes of a ledger are due.  Only the ledger of stakes and the amounts that are distributed
occur here, no shares, tables or indexes.
-/

namespace Verif.Spec

/-- Everything that counts for the owner of `k` on the day starting at `x`: the own stakes, weighted, and the stakes delegated by
others. -/
def Ledger.weight (L : Ledger) (k : Key) (x : Nat) : Nat := (L.own k x + L.lentTo k).toNat

/-- What the owner of `k` is due from an event (in 1/10^16 token), when the stakes of the pool `P` are those of `L`: the tokens
distributed, per unit of all stakes, rounded down, times the owner's part of the stakes. -/
def dividendBy (env : Env) (P k : Key) (s : Chain) (L : Ledger) (e : Event) : Nat :=
  10 ^ 16 * distributedBy env P s e / (L.all (midnight s.now)).toNat * L.weight k (midnight s.now)

/-- An honest history (see `LedgerRuns`) with the ledger kept along, in which the owner of `k` is due `n` altogether (in 1/10^16
token). -/
inductive DividendRuns (env : Env) (P k : Key) : Chain → Ledger → List Event → Chain → Ledger → Nat → Prop
  | nil (s : Chain) (L : Ledger) : DividendRuns env P k s L [] s L 0
  | cons {s s' : Chain} {L L1 L' : Ledger} {e : Event} {es : List Event} {n : Nat} :
      e.Valid env s → LedgerEvent env P s L L1 e → DividendRuns env P k (s.apply env e) L1 es s' L' n →
      DividendRuns env P k s L (e :: es) s' L' (dividendBy env P k s L e + n)

end Verif.Spec
