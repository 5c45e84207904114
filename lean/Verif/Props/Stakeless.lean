import Verif.Lemmas.Stakeless
import Verif.Lemmas.DemoIncentive
/-!
Nothing is earned without stake (C125).
-/

namespace Verif

open Spec

section
variable {env : Env}

/-- C125, one instruction.  If a mining has neither stake nor delegated stake before an instruction and no delegated stake after
it, the instruction credits nothing to it: what it paid from it and what is credited afterwards is exactly what was credited
before. -/
theorem C125_instruction {now : Nat} {w w' : World} {accs : List AccountInfo} {i : Ix} {ret : Option Nat}
    (hw : Wf env now w) (hs : RealSigners accs) (hclean : NotPoolAsMining env w accs i)
    (h : exec env now w accs i = .ok (w', ret)) {k : Key} {m m' : Mining} (hm : MiningAt env w k m)
    (hm' : MiningAt env w' k m') (h0 : NoStake m) (hn : m'.stakeFromOthers = 0) :
    claimedOut accs k i ret + m'.unclaimed = m.unclaimed :=
  (step_of_exec hw hs hclean h).bare hm hm' h0 hn

/-- C125, histories.  Over any history in which a mining is not closed and never has stake, own or delegated, whatever is
distributed meanwhile, it is paid and credited nothing beyond what was credited to it at the beginning. -/
theorem C125_history {k : Key} {m : Mining} {s s' : Chain} {es : List Event} (hw : Wf env s.now s.world)
    (hr : RunsWith env (LeavesBare env k) s es s') (hm : MiningAt env s.world k m) (ht : m.accountType = 2) (h0 : NoStake m)
    (hl : 0 < (s.world k).lamports) :
    ∃ m', MiningAt env s'.world k m' ∧ SameIdentity m m' ∧
      totalIn env (claimedBy env k) s es + m'.unclaimed = m.unclaimed := by
  obtain ⟨m', h1, h2, h3⟩ := runs_bare hr hw hm ht h0 hl
  exact ⟨m', h1, h2.identity, h3⟩

end

/-! ### Concrete cases -/

section Examples
open Demo

/-- Checks `LeavesBare` for the mining of `o` in pool 100. -/
def bareB (o : Key) (s : Chain) (e : Event) : Bool :=
  okEvent s e && (match e with
    | .ix accs .closeMining => decide (miningArg accs .closeMining ≠ some (mine o 100))
    | _ => true) &&
  (match ((s.apply Demo.env e).world (mine o 100)).content with
    | .mining m => decide (m.share = 0 ∧ m.stakeFromOthers = 0)
    | _ => true)

theorem bareB_sound {o : Key} {s : Chain} {e : Event} (h : bareB o s e = true) :
    e.Valid Demo.env s ∧ LeavesBare Demo.env (mine o 100) s e := by
  simp only [bareB, Bool.and_eq_true] at h
  obtain ⟨⟨h1, h2⟩, h3⟩ := h
  obtain ⟨hv, hc⟩ := okEvent_sound h1
  refine ⟨hv, hc, ?_, ?_⟩
  · rintro accs rfl; simpa using h2
  · intro m hm
    rw [hm.2] at h3
    simpa [NoStake] using h3

/-- The second staker takes everything out and loses the stake delegated to them; the first one goes on. -/
def leaving : Chain := (run s0 (story ++ [withdraw 100 121 1000 121, redelegate 100 120 500 121 120])).getD s0

theorem leaving_reachable : Reachable Demo.env leaving := after_reachable (by decide +kernel)

/-- What happens afterwards: distributions, and the one who left claims what was credited. -/
def onceLeft : List Event := [.tick DAY, distribute 100, claim 100 120 130, claim 100 121 131, .tick DAY, distribute 100,
  claim 100 121 131]

/-- `C125_history` is about this history. -/
example : ∃ m, Wf Demo.env leaving.now leaving.world ∧ MiningAt Demo.env leaving.world (mine 121 100) m ∧ m.accountType = 2 ∧
    NoStake m ∧ 0 < m.unclaimed ∧ 0 < (leaving.world (mine 121 100)).lamports ∧
    RunsWith Demo.env (LeavesBare Demo.env (mine 121 100)) leaving onceLeft (endOf leaving onceLeft) := by
  obtain ⟨m, hm, h⟩ := hasMining_sound (f := fun m => decide (m.accountType = 2 ∧ (m.share = 0 ∧ m.stakeFromOthers = 0) ∧
    0 < m.unclaimed)) (show hasMining leaving.world (mine 121 100) _ = true by decide +kernel)
  simp only [decide_eq_true_eq] at h
  exact ⟨m, reachable_wf leaving_reachable, hm, h.1, h.2.1, h.2.2, by decide +kernel,
    allPass_sound (fun _ _ => bareB_sound) (by decide +kernel)⟩

/-- `C125_instruction` is about this claim. -/
example : ∃ m w', Succeeds leaving [R 100, R 101, W (vaultOf 100 101), W (mine 121 100), S 121, S 110, W 131, R 2] .claim w' ∧
    MiningAt Demo.env leaving.world (mine 121 100) m ∧ NoStake m ∧ 0 < m.unclaimed := by
  obtain ⟨m, hm, h⟩ := hasMining_sound (f := fun m => decide ((m.share = 0 ∧ m.stakeFromOthers = 0) ∧ 0 < m.unclaimed))
    (show hasMining leaving.world (mine 121 100) _ = true by decide +kernel)
  simp only [decide_eq_true_eq] at h
  obtain ⟨w', hx⟩ := succeeds leaving_reachable (show okEvent leaving (claim 100 121 131) = true by decide +kernel)
  exact ⟨m, w', hx, hm, h.1, h.2⟩

end Examples

end Verif
