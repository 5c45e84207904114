import Verif.Spec.Outstake
import Verif.Lemmas.Life
/-!
Helper lemmas for C122.
-/

namespace Verif

open Spec

variable {env : Env}

theorem earned_compared {P k1 k2 : Key} {a b : Nat} {s : Chain} {e : Event} (h : HoldsAtMost P k1 k2 a b s e) :
    b * earnedBy env P k1 s e ≤ a * earnedBy env P k2 s e := by
  have key : ∀ k, earnedBy env P k s e =
      match e, (s.world P).content with
      | .ix accs i, .pool p => if succeeded env s accs i = true then
          10 ^ 16 * distributedFrom accs s.now P p i / (totalOn p (midnight s.now)).toNat * earnsWith s.world k (midnight s.now)
          else 0
      | _, _ => 0 := by
    intro k
    cases e with
    | ix accs i =>
      unfold earnedBy incomeBy earnsWith incomeFrom
      cases (s.world k).content <;> cases (s.world P).content <;> simp
    | _ => unfold earnedBy incomeBy; cases (s.world k).content <;> rfl
  rw [key, key]
  cases e with
  | ix accs i =>
    cases (s.world P).content with
    | pool p =>
      dsimp only
      split
      · cases i with
        | distributeRewards =>
          by_cases hf : FirstIs accs P
          · have h' := Nat.mul_le_mul_left
              (10 ^ 16 * distributedFrom accs s.now P p .distributeRewards / (totalOn p (midnight s.now)).toNat) (h hf)
            rw [Nat.mul_left_comm b, Nat.mul_left_comm a]
            exact h'
          · simp [distributedFrom, hf]
        | _ => simp [distributedFrom]
      · simp
    | _ => simp
  | _ => simp

theorem earned_total_compared {P k1 k2 : Key} {a b : Nat} {s s' : Chain} {es : List Event}
    (hr : RunsWith env (HoldsAtMost P k1 k2 a b) s es s') :
    b * totalIn env (earnedBy env P k1) s es ≤ a * totalIn env (earnedBy env P k2) s es := by
  induction hr with
  | nil => simp [totalIn]
  | cons hv hc _ ih =>
    simp only [totalIn, Nat.mul_add]
    exact Nat.add_le_add (earned_compared hc) ih

end Verif
