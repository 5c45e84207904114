import Verif.Lemmas.Local
import Verif.Props.Time
/-!
C83: an instruction depends on the accounts in its list only.
C84: groups of instructions that share no writable account do not influence each other.
-/

namespace Verif

open Spec

section
variable {env : Env}

/-- C83: in two worlds that agree on the accounts in the list, an instruction has the same outcome: the same error, or
success with the same return data and the same listed accounts, and every other account is left as it was.  All states, all
account lists, all instructions. -/
theorem C83_local {now : Nat} {accs : List AccountInfo} {w1 w2 : World} (h : ∀ k, Listed accs k → w1 k = w2 k) (i : Ix) :
    SameResult accs w1 w2 (exec env now w1 accs i) (exec env now w2 accs i) :=
  exec_local h i

/-- C83, writing: what is not in the list with the privilege to write does not change, whether the instruction succeeds or
not. -/
theorem C83_written {now : Nat} {accs : List AccountInfo} {w : World} {i : Ix} {k : Key} (hk : ¬ Writable accs k) :
    (outcome env now w accs i).1 k = w k :=
  outcome_unwritable hk

/-- C84: any mixture of two groups of calls such that no call of one group names an account that a call of the other may
write to.  Then every call has the same outcome as if there were only its own group; an account that is named by a group is
afterwards what that group alone would have made of it; and all other accounts are unchanged. -/
theorem C84_apart {w : World} {zs : List (Bool × Call)}
    (h : ∀ x ∈ part true zs, ∀ y ∈ part false zs, Unrelated x.accs y.accs) :
    (∀ b, picked b zs (runCalls env w (zs.map (·.2))).2 = (runCalls env w (part b zs)).2) ∧
    (∀ b k, (∃ x ∈ part b zs, Listed x.accs k) →
      (runCalls env w (zs.map (·.2))).1 k = (runCalls env w (part b zs)).1 k) ∧
    ∀ k, (∀ z ∈ zs, ¬ Listed z.2.accs k) → (runCalls env w (zs.map (·.2))).1 k = w k := by
  have key : ∀ b, picked b zs (runCalls env w (zs.map (·.2))).2 = (runCalls env w (part b zs)).2 ∧
      ∀ k, (∃ x ∈ part b zs, Listed x.accs k) →
        (runCalls env w (zs.map (·.2))).1 k = (runCalls env w (part b zs)).1 k := by
    intro b
    refine runCalls_apart (S := fun k => ∃ x ∈ part b zs, Listed x.accs k) b zs (fun x hx k hk => ⟨x, hx, hk⟩) ?_
      fun _ _ => rfl
    rintro y hy k hw ⟨x, hx, hl⟩
    cases b with
    | true => exact (h x hx y hy).2 k hw hl
    | false => exact (h y hy x hx).1 k hw hl
  refine ⟨fun b => (key b).1, fun b => (key b).2, fun k hk => ?_⟩
  refine runCalls_unwritable _ fun x hx hw => ?_
  obtain ⟨z, hz, rfl⟩ := List.mem_map.mp hx
  obtain ⟨a, ha, hak, _⟩ := hw
  exact hk z hz ⟨a, ha, hak⟩

/-- C84, two instructions: if neither names an account that the other may write to they can be exchanged: both have the same
outcome, also the same error, and every account is the same afterwards. -/
theorem C84_exchange {w : World} {x y : Call} (h : Unrelated x.accs y.accs) :
    (runCalls env w [x, y]).1 = (runCalls env w [y, x]).1 ∧
    ∃ r s, (runCalls env w [x, y]).2 = [r, s] ∧ (runCalls env w [y, x]).2 = [s, r] := by
  have h1 := C84_apart (env := env) (w := w) (zs := [(true, x), (false, y)]) (by simpa [part] using h)
  have h2 := C84_apart (env := env) (w := w) (zs := [(false, y), (true, x)]) (by simpa [part] using h)
  refine ⟨?_, ?_⟩
  · funext k
    by_cases hx : Listed x.accs k
    · exact (h1.2.1 true k (by simpa [part] using hx)).trans (h2.2.1 true k (by simpa [part] using hx)).symm
    · by_cases hy : Listed y.accs k
      · exact (h1.2.1 false k (by simpa [part] using hy)).trans (h2.2.1 false k (by simpa [part] using hy)).symm
      · exact (h1.2.2 k (by simp [hx, hy])).trans (h2.2.2 k (by simp [hx, hy])).symm
  · have a1 := h1.1 true
    have a2 := h1.1 false
    have b1 := h2.1 true
    have b2 := h2.1 false
    simp [part, picked, runCalls] at a1 a2 b1 b2
    simp only [runCalls]
    exact ⟨_, _, rfl, by rw [a2, b1]⟩

end

open Demo

/-- Somebody else's account 999 differs; the claim succeeds in both worlds. -/
example : let w2 := afterStory.world.set 999 { owner := 3, lamports := 5, len := 0, content := .zero }
    (∀ k, Listed [R 100, R 101, W (vaultOf 100 101), W (mine 120 100), S 120, S 110, W 130, R 2] k →
      afterStory.world k = w2 k) ∧
    returned afterStory (claim 100 120 130) = some 1481 ∧ afterStory.world 999 ≠ w2 999 := by
  refine ⟨?_, by decide +kernel, by decide +kernel⟩
  rintro k ⟨a, ha, rfl⟩
  rw [world_set_ne]
  revert a
  decide +kernel

/-- The calls of somebody at time `t`. -/
def callOf (t : Nat) : Event → Call
  | .ix accs i => ⟨t, accs, i⟩
  | _ => ⟨t, [], .claim⟩

/-- Payments and a distribution in one pool, mixed with the creation of another pool, a mining and a deposit there. -/
def mixture : List (Bool × Call) :=
  [(true, callOf afterStory.now (claim 100 120 130)), (false, callOf afterStory.now (initPool 200)),
   (false, callOf afterStory.now (initMining 200 120)), (true, callOf (afterStory.now + DAY) (distribute 100)),
   (false, callOf (afterStory.now + DAY) (deposit 200 120 77 .flex 120)),
   (true, callOf (afterStory.now + DAY) (claim 100 120 130))]

/-- The mixture meets the hypothesis of `C84_apart`, and all its calls succeed. -/
example : (∀ x ∈ part true mixture, ∀ y ∈ part false mixture, Unrelated x.accs y.accs) ∧
    (runCalls Demo.env afterStory.world (mixture.map (·.2))).2.map
      (fun r => match r with | .ok n => some n | .error _ => none) =
    [some (some 1481), some none, some none, some none, some none, some (some 740)] := by
  refine ⟨fun x hx y hy => apart_sound ?_, by decide +kernel⟩
  have h : ((part true mixture).all fun x => (part false mixture).all fun y => apart x.accs y.accs) = true := by
    decide +kernel
  exact List.all_eq_true.mp (List.all_eq_true.mp h x hx) y hy

end Verif
