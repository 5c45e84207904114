import Verif.Spec.Incentive
/-!
Specification vocabulary for an amount that is divided among several minings.
-/

namespace Verif.Spec

/-- The amount of a deposit. -/
def amountOf : Event → Nat
  | .ix _ (.depositMining a _ _ _) => a
  | _ => 0

/-- A successful deposit into the pool at `P` for the period `l`, not delegated, into one of the minings `ks`, whose table has
room for the expiry date. -/
def DepositInto (env : Env) (P : Key) (l : LockupPeriod) (ks : List Key) (s : Chain) : Event → Prop
  | .ix accs (.depositMining a l' o d) => l' = l ∧ succeeded env s accs (.depositMining a l' o d) = true ∧
      poolArg accs (.depositMining a l' o d) = some P ∧
      ∃ M ∈ ks, miningArg accs (.depositMining a l' o d) = some M ∧ delegateArg accs (.depositMining a l' o d) = some M ∧
        RoomInMining env M s l
  | _ => False

/-- The same, but delegated to the mining `D`, which is none of `ks`. -/
def DepositTo (env : Env) (P : Key) (l : LockupPeriod) (D : Key) (ks : List Key) (s : Chain) : Event → Prop
  | .ix accs (.depositMining a l' o d) => l' = l ∧ succeeded env s accs (.depositMining a l' o d) = true ∧
      poolArg accs (.depositMining a l' o d) = some P ∧ delegateArg accs (.depositMining a l' o d) = some D ∧ D ∉ ks ∧
      ∃ M ∈ ks, miningArg accs (.depositMining a l' o d) = some M ∧ RoomInMining env M s l
  | _ => False

/-- No instruction names one of the accounts `ks`. -/
def Avoids (ks : List Key) : Event → Prop
  | .ix accs _ => ∀ a ∈ accs, a.key ∉ ks
  | _ => True

/-- Two events are the same, except for what other programs do to the lamports of the accounts `ks`. -/
def SameBut (ks : List Key) (e e' : Event) : Prop :=
  e = e' ∨ ∃ w w', e = .ext w ∧ e' = .ext w' ∧ ∀ k, k ∉ ks → w k = w' k

/-- Two lists of events that are pairwise the same, except for what other programs do to the lamports of the accounts `ks`. -/
def AllSameBut (ks : List Key) : List Event → List Event → Prop
  | [], [] => True
  | e :: es, e' :: es' => SameBut ks e e' ∧ AllSameBut ks es es'
  | _, _ => False

end Verif.Spec
