import Verif.Lemmas.Ranges
import Verif.Lemmas.DemoExec
/-!
C44: no silent wrap-around.
-/

namespace Verif

open Spec

section
variable {env : Env}

/-- C44, arithmetic: every checked operation returns the exact result if it fits (and, for subtraction and division, if
it exists) and fails otherwise. -/
theorem C44_arithmetic (a b : Nat) :
    (∀ r, safeAdd64 a b = .ok r ↔ r = a + b ∧ r < 2 ^ 64) ∧
    (∀ r, safeMul64 a b = .ok r ↔ r = a * b ∧ r < 2 ^ 64) ∧
    (∀ r, safeSub a b = .ok r ↔ r + b = a) ∧
    (∀ r, safeDiv a b = .ok r ↔ b ≠ 0 ∧ r * b ≤ a ∧ a < (r + 1) * b) ∧
    (∀ r, safeAdd128 a b = .ok r ↔ r = a + b ∧ r < 2 ^ 128) ∧
    (∀ r, safeMul128 a b = .ok r ↔ r = a * b ∧ r < 2 ^ 128) ∧
    (∀ r, u64TryFrom a = .ok r ↔ r = a ∧ r < 2 ^ 64) ∧
    (∀ r, rawAdd64 a b = .ok r ↔ r = a + b ∧ r < 2 ^ 64) := by
  refine ⟨?_, ?_, ?_, ?_, ?_, ?_, ?_, ?_⟩ <;> intro r
  · rw [safeAdd64_ok, u64_eq]; exact ⟨fun h => ⟨h.2, h.2 ▸ h.1⟩, fun h => ⟨h.1 ▸ h.2, h.1⟩⟩
  · rw [safeMul64_ok, u64_eq]; exact ⟨fun h => ⟨h.2, h.2 ▸ h.1⟩, fun h => ⟨h.1 ▸ h.2, h.1⟩⟩
  · rw [safeSub_ok]; omega
  · rw [safeDiv_ok]
    constructor
    · rintro ⟨h1, rfl⟩
      refine ⟨h1, Nat.div_mul_le_self _ _, ?_⟩
      rw [Nat.mul_comm]
      exact Nat.lt_mul_div_succ a (by omega)
    · rintro ⟨h1, h2, h3⟩
      refine ⟨h1, Nat.le_antisymm ((Nat.le_div_iff_mul_le (by omega)).mpr h2) ?_⟩
      exact Nat.le_of_lt_succ ((Nat.div_lt_iff_lt_mul (by omega)).mpr h3)
  · rw [safeAdd128_ok, u128_eq]; exact ⟨fun h => ⟨h.2, h.2 ▸ h.1⟩, fun h => ⟨h.1 ▸ h.2, h.1⟩⟩
  · rw [safeMul128_ok, u128_eq]; exact ⟨fun h => ⟨h.2, h.2 ▸ h.1⟩, fun h => ⟨h.1 ▸ h.2, h.1⟩⟩
  · unfold u64TryFrom; rw [← u64_eq]; split <;> simp <;> omega
  · rw [rawAdd64_ok, u64_eq]; exact ⟨fun h => ⟨h.2, h.2 ▸ h.1⟩, fun h => ⟨h.1 ▸ h.2, h.1⟩⟩

/-- C44, one instruction: if every number fits its field before (64 or 128 bits, tables within their capacity), every
number fits afterwards, whatever the arguments are. -/
theorem C44_instruction {now : Nat} {w w' : World} {accs : List AccountInfo} {i : Ix} {ret : Option Nat}
    (hw : Wf env now w) (hs : RealSigners accs) (hclean : NotPoolAsMining env w accs i) (hn : now < 2 ^ 64)
    (hf : AllFit env w) (h : exec env now w accs i = .ok (w', ret)) : AllFit env w' :=
  (step_of_exec hw hs hclean h).fits hn hw hf

/-- C44, all histories: in every reachable state in which the clock is a 64-bit number, every number in every pool and
mining fits the field it is stored in, and every table fits the space reserved for it. -/
theorem C44_history {s : Chain} (h : Reachable env s) (hn : s.now < 2 ^ 64) : AllFit env s.world := by
  obtain ⟨s0, es, hg, hr⟩ := h
  have hw := wf_genesis hg
  have hf : AllFit env s0.world := by
    refine ⟨fun k p hp => ?_, fun k m hm => ?_⟩
    · have := (hg.owned k hp.1).1; rw [hp.2] at this; cases this
    · have := (hg.owned k hm.1).1; rw [hm.2] at this; cases this
  clear hg
  induction hr with
  | nil => exact hf
  | @cons s s' e es hv hc hr ih =>
    exact ih hn (wf_apply hw hv hc) (apply_fits hw hf hv hc
      (Nat.lt_of_le_of_lt (run_now_le (.cons hv hc hr)) hn))

end

namespace Demo

/-- The hypotheses of `C44_history` and `C44_instruction` are met in a state with two minings, tables and a claim. -/
example : Reachable env afterStory ∧ afterStory.now < 2 ^ 64 ∧ AllFit env afterStory.world ∧
    ∃ w', Succeeds afterStory [W 100, W (mine 120 100), S 110, W (mine 121 100)]
      (.depositMining 70 .sixMonths 120 121) w' := by
  have h : afterStory.now < 2 ^ 64 := by decide +kernel
  exact ⟨afterStory_reachable, h, C44_history afterStory_reachable h, succeeds afterStory_reachable (by decide +kernel)⟩

/-- The bound is not vacuous: the same deposit of 2^63 tokens for a year fails. -/
example : worldAfter afterStory (deposit 100 120 (2 ^ 63) .oneYear 120) = none := by
  unfold worldAfter deposit
  decide +kernel

end Demo

end Verif
