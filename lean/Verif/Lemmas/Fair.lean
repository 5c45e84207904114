import Verif.Lemmas.Income
/-!
Incomes are linear in the stake.
-/

namespace Verif

open Spec

variable {env : Env}

/-- Sums of incomes, as sums over a history. -/
theorem income_sum {P : Key} {m : Mining} {ms : List Mining} {s s' : Chain} {es : List Event} {a : Nat}
    {C : Chain → Event → Prop} (hr : RunsWith env C s es s')
    (h : ∀ d, midnight s.now ≤ d → d ≤ midnight s'.now → d % 86400 = 0 → (ms.map (earningOn · d)).sum = a * earningOn m d) :
    (ms.map fun x => totalIn env (incomeBy env P x) s es).sum = a * totalIn env (incomeBy env P m) s es := by
  have zero : ∀ l : List Mining, (l.map fun _ => 0).sum = 0 := by
    intro l
    induction l with
    | nil => rfl
    | cons x t ih => rw [List.map_cons, List.sum_cons, ih]
  have add : ∀ (l : List Mining) (f g : Mining → Nat), (l.map fun x => f x + g x).sum = (l.map f).sum + (l.map g).sum := by
    intro l f g
    induction l with
    | nil => rfl
    | cons x t ih => simp only [List.map_cons, List.sum_cons, ih]; omega
  have mul : ∀ (l : List Mining) (f : Mining → Nat) (c : Nat), (l.map fun x => c * f x).sum = c * (l.map f).sum := by
    intro l f c
    induction l with
    | nil => rfl
    | cons x t ih => simp only [List.map_cons, List.sum_cons, ih, Nat.mul_add]
  have mid : ∀ {x y : Nat}, x ≤ y → midnight x ≤ midnight y := fun h => Nat.mul_le_mul_right _ (Nat.div_le_div_right h)
  induction hr with
  | nil => simp only [totalIn]; rw [zero]; rfl
  | @cons s s' e es hv hc hr ih =>
    have hlast := run_now_le hr
    have hnow : s.now ≤ (s.apply env e).now := by
      cases e with
      | tick n => exact Nat.le_add_right _ _
      | ix accs i =>
        simp only [Chain.apply]
        split <;> exact Nat.le_refl _
      | _ => exact Nat.le_refl _
    simp only [totalIn]
    rw [add, Nat.mul_add]
    congr 1
    · cases e with
      | ix accs i =>
        simp only [incomeBy]
        split
        · split
          · simp only [incomeFrom]
            rw [mul, h _ (Nat.le_refl _) (mid (Nat.le_trans hnow hlast)) (Nat.mul_mod_left _ _)]
            exact Nat.mul_left_comm _ _ _
          · exact zero ms
        · exact zero ms
      | _ => exact zero ms
    · exact ih fun d hd hd' h0 => h d (Nat.le_trans (mid hnow) hd) hd' h0

end Verif
