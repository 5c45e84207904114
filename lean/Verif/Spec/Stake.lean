import Verif.Model.State
/-!
Specification vocabulary: weighted stake on a day, history of distributions, entitlement to rewards.
Nothing here uses the methods of the model.
-/

namespace Verif.Spec

/-- Beginning of the UTC day of a timestamp. -/
def midnight (t : Nat) : Nat := t / 86400 * 86400

/-- Sum of the expirations recorded for dates up to and including `d`. -/
def dueBy (l : List (Nat × Nat)) (d : Nat) : Nat := ((l.filter fun e => decide (e.1 ≤ d)).map (·.2)).sum

/-- Sum of all recorded expirations. -/
def total (l : List (Nat × Nat)) : Nat := (l.map (·.2)).sum

/-- A mining's own weighted stake on the day starting at `d` (an integer: nothing is cut off at 0). -/
def weightOn (m : Mining) (d : Nat) : Int := (m.share : Int) - dueBy m.diffs d

/-- The stake a mining earns with on the day starting at `d`: its own weighted stake plus the stake delegated to it. -/
def earningOn (m : Mining) (d : Nat) : Nat := m.share + m.stakeFromOthers - dueBy m.diffs d

/-- The pool's total weighted stake on the day starting at `d`. -/
def totalOn (p : Pool) (d : Nat) : Int := (p.totalShare : Int) - dueBy p.diffs d

/-- The expirations of a mining never exceed its stake. -/
def Backed (m : Mining) : Prop := total m.diffs ≤ m.share

/-- Keys strictly increasing. -/
def Sorted (l : List (Nat × Nat)) : Prop := l.Pairwise (fun a b => a.1 < b.1)

/-- A history of distributions (date, index after it): dates strictly increasing, index not decreasing, dates at
midnight. -/
structure History (l : List (Nat × Nat)) : Prop where
  sorted : Sorted l
  mono : l.Pairwise (fun a b => a.2 ≤ b.2)
  aligned : ∀ e ∈ l, e.1 % 86400 = 0

/-- Index after the last distribution of the list, `prev` if it is empty. -/
def lastIndex (prev : Nat) : List (Nat × Nat) → Nat
  | [] => prev
  | e :: t => lastIndex e.2 t

/-- Index after the last distribution dated before `t`. -/
def indexBefore (l : List (Nat × Nat)) (t : Nat) : Nat := lastIndex 0 (l.filter fun e => decide (e.1 < t))

/-- Rewards, in units of 1/10^16 token, earned from the listed distributions by somebody who has consumed the index up
to `i` and has stake `eff d` on day `d`: for every distribution the not yet consumed part of the index increment times
the stake of its day. -/
def earned (eff : Nat → Nat) (i : Nat) : (prev : Nat) → List (Nat × Nat) → Nat
  | _, [] => 0
  | prev, (d, idx) :: t => (max idx i - max prev i) * eff d + earned eff i idx t

/-- What a mining is entitled to (in 1/10^16 token) from the distributions dated before `t`, beyond `unclaimed`. -/
def entitlement (m : Mining) (l : List (Nat × Nat)) (t : Nat) : Nat :=
  earned (earningOn m) m.index 0 (l.filter fun e => decide (e.1 < t))

/-- What a mining is entitled to (in 1/10^16 token) from all recorded distributions, beyond `unclaimed`. -/
def pending (m : Mining) (l : List (Nat × Nat)) : Nat := earned (earningOn m) m.index 0 l

/-- Everything a mining is owed, in 1/10^16 token: what is credited and what is still to be credited from all recorded
distributions. -/
def owed (m : Mining) (l : List (Nat × Nat)) : Nat := 10 ^ 16 * m.unclaimed + pending m l

/-- Every recorded distribution is dated before `now`, i.e. visible to operations at `now`. -/
def Settled (l : List (Nat × Nat)) (now : Nat) : Prop := ∀ e ∈ l, e.1 < now

/-- Number of expirations due at `t`. -/
def expiredCount (m : Mining) (t : Nat) : Nat := (m.diffs.filter fun e => decide (e.1 ≤ t)).length

end Verif.Spec
