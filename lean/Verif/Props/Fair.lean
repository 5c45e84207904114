import Verif.Lemmas.Fair
import Verif.Props.Income
/-!
C68: equal treatment of stakers.
-/

namespace Verif

open Spec

section
variable {env : Env}

/-- C68, two stakers.  Over any history in which no instruction is allowed to write to two minings of a pool, what they are
owed grows in the proportion of their stakes: if all the time one earns with `a / b` times the stake of the other, its income is
exactly `a / b` times the other's. -/
theorem C68_proportional {P k1 k2 : Key} {s s' : Chain} {es : List Event} {m1 m2 : Mining} {p p' : Pool}
    (hre : Reachable env s) (hr : RunsWith env (fun s e => CleanEvent env s e ∧ Spares k1 e ∧ Spares k2 e) s es s')
    (h1 : MiningAt env s.world k1 m1) (hl1 : 0 < (s.world k1).lamports) (hi1 : m1.index ≤ p.index)
    (h2 : MiningAt env s.world k2 m2) (hl2 : 0 < (s.world k2).lamports) (hi2 : m2.index ≤ p.index)
    (hp : PoolAt env s.world P p) (hpl : 0 < (s.world P).lamports)
    (hp' : PoolAt env s'.world P p') (hroom : p'.cumulative.length < env.caps.index) {a b : Nat}
    (hab : ∀ d, midnight s.now ≤ d → d ≤ midnight s'.now → d % 86400 = 0 → b * earningOn m1 d = a * earningOn m2 d) :
    ∃ g1 g2, MiningAt env s'.world k1 m1 ∧ MiningAt env s'.world k2 m2 ∧ owed m1 p'.cumulative = owed m1 p.cumulative + g1 ∧
      owed m2 p'.cumulative = owed m2 p.cumulative + g2 ∧ b * g1 = a * g2 := by
  obtain ⟨a1, b1⟩ := C61_income hre (hr.weaken fun _ _ h => ⟨h.1, h.2.1⟩) h1 hl1 hp hpl hi1 hp' hroom
  obtain ⟨a2, b2⟩ := C61_income hre (hr.weaken fun _ _ h => ⟨h.1, h.2.2⟩) h2 hl2 hp hpl hi2 hp' hroom
  have e1 := income_sum (env := env) (P := P) (m := m2) (ms := List.replicate b m1) (a := a) hr (by
    intro d hd hd' h0; rw [List.map_replicate, List.sum_replicate_nat]; exact hab d hd hd' h0)
  rw [List.map_replicate, List.sum_replicate_nat] at e1
  exact ⟨_, _, a1, a2, b1, b2, e1⟩

/-- C68, splitting.  Over any such history several minings of a pool together earn exactly as much as one mining with the
sum of their stakes: splitting or joining stakes gains and loses nothing but the rounding to whole tokens. -/
theorem C68_split {P k : Key} {s s' : Chain} {es : List Event} {m : Mining} {xs : List (Key × Mining)} {p p' : Pool}
    (hre : Reachable env s)
    (hr : RunsWith env (fun s e => CleanEvent env s e ∧ Spares k e ∧ ∀ x ∈ xs, Spares x.1 e) s es s')
    (hm : MiningAt env s.world k m) (hl : 0 < (s.world k).lamports) (hidx : m.index ≤ p.index)
    (hx : ∀ x ∈ xs, MiningAt env s.world x.1 x.2 ∧ 0 < (s.world x.1).lamports ∧ x.2.index ≤ p.index)
    (hp : PoolAt env s.world P p) (hpl : 0 < (s.world P).lamports)
    (hp' : PoolAt env s'.world P p') (hroom : p'.cumulative.length < env.caps.index)
    (hsum : ∀ d, midnight s.now ≤ d → d ≤ midnight s'.now → d % 86400 = 0 → (xs.map fun x => earningOn x.2 d).sum = earningOn m d) :
    ∃ g, owed m p'.cumulative = owed m p.cumulative + g ∧
      (xs.map fun x => owed x.2 p'.cumulative).sum = (xs.map fun x => owed x.2 p.cumulative).sum + g ∧
      MiningAt env s'.world k m ∧ ∀ x ∈ xs, MiningAt env s'.world x.1 x.2 := by
  obtain ⟨a1, b1⟩ := C61_income hre (hr.weaken fun _ _ h => ⟨h.1, h.2.1⟩) hm hl hp hpl hidx hp' hroom
  have each : ∀ x ∈ xs, MiningAt env s'.world x.1 x.2 ∧
      owed x.2 p'.cumulative = owed x.2 p.cumulative + totalIn env (incomeBy env P x.2) s es := fun x hmem =>
    C61_income hre (hr.weaken fun _ _ h => ⟨h.1, h.2.2 x hmem⟩) (hx x hmem).1 (hx x hmem).2.1 hp hpl (hx x hmem).2.2 hp' hroom
  have e1 := income_sum (env := env) (P := P) (m := m) (ms := xs.map (·.2)) (a := 1) hr (by
    intro d hd hd' h0; rw [List.map_map, Nat.one_mul]; exact hsum d hd hd' h0)
  rw [Nat.one_mul, List.map_map] at e1
  refine ⟨_, b1, ?_, a1, fun x hmem => (each x hmem).1⟩
  rw [← e1]
  clear e1 hsum hr hx
  induction xs with
  | nil => rfl
  | cons x t ih =>
    have h1 := (each x (by simp)).2
    have h2 := ih fun y hy => each y (by simp [hy])
    simp only [List.map_cons, List.sum_cons, Function.comp_apply] at h2 ⊢
    omega

end

section Examples
open Demo

/-- Three stakers with 300, 200 and 100 tokens locked for three months, after a first distribution. -/
def threeStory : List Event :=
  [initPool 100, initMining 100 120, initMining 100 121, initMining 100 122, deposit 100 120 300 .threeMonths 120,
    deposit 100 121 200 .threeMonths 121, deposit 100 122 100 .threeMonths 122, fill 100 10000 (day0 + 10 * DAY),
    distribute 100]

def afterThree : Chain := (run s0 threeStory).getD s0

/-- What happens then: the vault is filled, two distributions, a fourth staker comes. -/
def fourth : List Event :=
  [.tick DAY, distribute 100, fill 100 500 (day0 + 20 * DAY), initMining 100 123, deposit 100 123 70 .flex 123, .tick DAY,
    distribute 100]

def afterFourth : Chain := (run afterThree fourth).getD afterThree

example : Reachable Demo.env afterThree := after_reachable (by decide +kernel)

example : RunsWith Demo.env (fun s e => CleanEvent Demo.env s e ∧ Spares (mine 120 100) e ∧
    ∀ x ∈ [mine 121 100, mine 122 100], Spares x e) afterThree fourth afterFourth := by
  have h : run afterThree fourth = some afterFourth := by
    have h : (run afterThree fourth).isSome = true := by decide +kernel
    unfold afterFourth
    cases hr : run afterThree fourth with
    | none => rw [hr] at h; cases h
    | some x => rfl
  have h := sparesB_sound (k := mine 122 100) (sparesB_sound (k := mine 121 100) (sparesB_sound (k := mine 120 100)
    (run_sound h) (by decide +kernel)) (by decide +kernel)) (by decide +kernel)
  refine h.weaken fun s e h => ⟨h.1.1.1, h.1.1.2, fun x hx => ?_⟩
  rcases List.mem_cons.mp hx with rfl | hx
  · exact h.1.2
  · rw [List.mem_singleton] at hx; subst hx; exact h.2

/-- The stake of 120 is the sum of the other two, that of 121 is twice that of 122, and all earn something. -/
example : hasPool afterThree.world 100 (fun p => hasMining afterThree.world (mine 120 100) fun m =>
    hasMining afterThree.world (mine 121 100) fun m1 => hasMining afterThree.world (mine 122 100) fun m2 =>
    hasPool afterFourth.world 100 fun p' =>
    decide ((∀ n ∈ List.range 3, earningOn m (midnight afterThree.now + n * DAY) = 600 ∧
      earningOn m1 (midnight afterThree.now + n * DAY) = 400 ∧ earningOn m2 (midnight afterThree.now + n * DAY) = 200) ∧
      midnight afterFourth.now = midnight afterThree.now + 2 * DAY ∧ m.index ≤ p.index ∧ m1.index ≤ p.index ∧
      m2.index ≤ p.index ∧ 0 < (afterThree.world 100).lamports ∧ 0 < (afterThree.world (mine 120 100)).lamports ∧
      0 < (afterThree.world (mine 121 100)).lamports ∧ 0 < (afterThree.world (mine 122 100)).lamports ∧
      p'.cumulative.length < Demo.env.caps.index ∧
      owed m2 p.cumulative + 10 ^ 18 < owed m2 p'.cumulative)) = true := by decide +kernel

end Examples

end Verif
