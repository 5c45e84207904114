import Verif.Spec.Terms
/-!
Specification vocabulary for the reward budget and its daily distribution.
-/

namespace Verif.Spec

/-- What is to be distributed at `now` from a budget `avail` that has to last until `ends`: an equal share for each whole
day left, everything if less than one whole day is left. -/
def dailyAmount (avail ends now : Nat) : Nat :=
  if ends - now < 86400 then avail else avail / ((ends - now) / 86400)

/-- No distribution has been recorded for the day of `now`. -/
def NewDay (p : Pool) (now : Nat) : Prop := ∀ e ∈ p.cumulative, e.1 ≠ midnight now

instance (p : Pool) (now : Nat) : Decidable (NewDay p now) := by unfold NewDay; infer_instance

/-- The first account of the list is `k`. -/
def FirstIs (accs : List AccountInfo) (k : Key) : Prop := accs.head?.map (·.key) = some k

instance (accs : List AccountInfo) (k : Key) : Decidable (FirstIs accs k) := by unfold FirstIs; infer_instance

/-- Tokens an instruction adds to the budget of the pool at `k`. -/
def addedTo (accs : List AccountInfo) (k : Key) : Ix → Nat
  | .fillVault r _ => if FirstIs accs k then r else 0
  | _ => 0

/-- Tokens an instruction distributes from the budget of the pool `p` at `k`. -/
def distributedFrom (accs : List AccountInfo) (now : Nat) (k : Key) (p : Pool) : Ix → Nat
  | .distributeRewards =>
    if FirstIs accs k ∧ NewDay p now then dailyAmount p.tokensAvailable p.distributionEndsAt now else 0
  | _ => 0

/-- The instruction succeeds. -/
def succeeded (env : Env) (s : Chain) (accs : List AccountInfo) (i : Ix) : Bool :=
  match exec env s.now s.world accs i with
  | .ok _ => true
  | .error _ => false

/-- Tokens added to the budget of the pool at `k` by an event. -/
def filledBy (env : Env) (k : Key) (s : Chain) : Event → Nat
  | .ix accs i => if succeeded env s accs i = true then addedTo accs k i else 0
  | _ => 0

/-- Tokens distributed from the budget of the pool at `k` by an event. -/
def distributedBy (env : Env) (k : Key) (s : Chain) : Event → Nat
  | .ix accs i =>
    match (s.world k).content with
    | .pool p => if succeeded env s accs i = true then distributedFrom accs s.now k p i else 0
    | _ => 0
  | _ => 0

/-- Sum over a history. -/
def totalIn (env : Env) (f : Chain → Event → Nat) : Chain → List Event → Nat
  | _, [] => 0
  | s, e :: es => f s e + totalIn env f (s.apply env e) es

/-- Histories without type confusion. -/
abbrev CleanRun (env : Env) := RunsWith env (CleanEvent env)

end Verif.Spec
