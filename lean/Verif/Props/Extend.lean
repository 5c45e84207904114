import Verif.Lemmas.Delegate
import Verif.Props.Split
/-!
C80: extending a stake is taking it out and putting it in again.
C81: whom a stake is delegated to makes no difference to the staker.
-/

namespace Verif

open Spec

section
variable {env : Env}

/-! ## C80 -/

/-- C80, free tokens: if the tokens of the old stake are free and the pool is up to date, extending the stake of `b` tokens
with another `a` is withdrawing `b` and then depositing `b + a` for the new period, with the same delegate: one way succeeds
if and only if the other does, and every account is the same afterwards. -/
theorem C80_free {s : Chain} (h : Reachable env s) (hn : s.now < 2 ^ 64) {accs : List AccountInfo} (hs : RealSigners accs)
    {P M A D : AccountInfo} {rest : List AccountInfo} {p : Pool} {m : Mining} {d : Option Mining} {owner delegate : Key}
    {old new : LockupPeriod} {ts b a : Nat} (hc : StakeReady env s.world accs P M A D rest p m d owner delegate)
    (hp : PoolUpToDate s.now p) (hf : TokensFree s.now old ts) :
    SameAsTwo env s.now s.world accs (.extendStake old new ts b a owner delegate) (.withdrawMining b owner delegate)
      (.depositMining (b + a) new owner delegate) :=
  extend_free_exec (reachable_wf h) hs hc (member_fine h hn hc.mining) (delegate_fine h hn hc.delegate) hp hf

/-- C80, running locks: an extension of an undelegated stake whose lock is running (and which the pool has recorded) could
also be made by slashing the stake completely and depositing it for the new period.  The result differs in one number: the
pool's table keeps what was to expire with the old lock, which no stake has any more. -/
theorem C80_running {s : Chain} (h : Reachable env s) (hn : s.now < 2 ^ 64) {accs accs' : List AccountInfo}
    (hs : RealSigners accs') {P M A D A' : AccountInfo} {rest rest' : List AccountInfo} {p : Pool} {m : Mining}
    {owner delegate : Key} {old new : LockupPeriod} {ts b a k n v : Nat}
    (hc : StakeReady env s.world accs P M A D rest p m none owner delegate)
    (hc' : SlashReady env s.world accs' A' P M rest' p m owner) (hp : PoolUpToDate s.now p)
    (ht : terms old = some (k, n)) (hold : old ≠ .flex) (hrun : s.now < midnight ts + 86400 * n)
    (hv : (midnight ts + 86400 * n, v) ∈ p.diffs) (hle : b * k - b ≤ v) {we : World}
    (hx : exec env s.now s.world accs (.extendStake old new ts b a owner delegate) = .ok (we, none)) :
    ∃ w1 w2, exec env s.now s.world accs' (.slash owner b (b * k) (some (midnight ts + 86400 * n))) = .ok (w1, none) ∧
      exec env s.now w1 accs (.depositMining (b + a) new owner delegate) = .ok (w2, none) ∧
      OnlyMoreExpires env w2 we P.key (midnight ts + 86400 * n) (b * k - b) :=
  extend_running_exec (reachable_wf h) hs hc hc' (member_fine h hn hc.mining) hp ht hold hrun hv hle hx

/-! ## C81 -/

/-- C81, depositing: with different delegates, the staker's mining is the same afterwards; the pool's total differs by what
is delegated. -/
theorem C81_deposit {s : Chain} (h : Reachable env s) (hn : s.now < 2 ^ 64) {accs1 accs2 : List AccountInfo}
    {P M A1 A2 D1 D2 : AccountInfo} {rest1 rest2 : List AccountInfo} {p : Pool} {m : Mining} {d1 d2 : Option Mining}
    {owner e1 e2 : Key} {per : LockupPeriod} {a : Nat}
    (hc1 : StakeReady env s.world accs1 P M A1 D1 rest1 p m d1 owner e1)
    (hc2 : StakeReady env s.world accs2 P M A2 D2 rest2 p m d2 owner e2) {w1 w2 : World}
    (h1 : exec env s.now s.world accs1 (.depositMining a per owner e1) = .ok (w1, none))
    (h2 : exec env s.now s.world accs2 (.depositMining a per owner e2) = .ok (w2, none)) :
    SameForStaker env w1 w2 P.key M.key D1.key D2.key (delegated d1 a) (delegated d2 a) := by
  have hw := reachable_wf h
  obtain ⟨o1, o2, o3⟩ := hc1.oks hw
  obtain ⟨-, -, o4⟩ := hc2.oks hw
  obtain ⟨r1, k1, rfl⟩ := (deposit_exec_eq hw hc1 _).mp h1
  obtain ⟨r2, k2, rfl⟩ := (deposit_exec_eq hw hc2 _).mp h2
  obtain ⟨-, -, -, -, s1⟩ := deposit_same o1 o2 o3 k1
  obtain ⟨-, -, -, -, s2⟩ := deposit_same o1 o2 o4 k2
  exact stakeWorld_alike hc1 hc2 s1 s2 (deposit_alike o1.history o1.sorted (member_fine h hn hc1.mining)
    (delegate_fine h hn hc1.delegate) (delegate_fine h hn hc2.delegate) k1 k2)

/-- C81, withdrawing. -/
theorem C81_withdraw {s : Chain} (h : Reachable env s) (hn : s.now < 2 ^ 64) {accs1 accs2 : List AccountInfo}
    {P M A1 A2 D1 D2 : AccountInfo} {rest1 rest2 : List AccountInfo} {p : Pool} {m : Mining} {d1 d2 : Option Mining}
    {owner e1 e2 : Key} {a : Nat}
    (hc1 : StakeReady env s.world accs1 P M A1 D1 rest1 p m d1 owner e1)
    (hc2 : StakeReady env s.world accs2 P M A2 D2 rest2 p m d2 owner e2) {w1 w2 : World}
    (h1 : exec env s.now s.world accs1 (.withdrawMining a owner e1) = .ok (w1, none))
    (h2 : exec env s.now s.world accs2 (.withdrawMining a owner e2) = .ok (w2, none)) :
    SameForStaker env w1 w2 P.key M.key D1.key D2.key (delegated d2 a) (delegated d1 a) := by
  have hw := reachable_wf h
  obtain ⟨o1, o2, o3⟩ := hc1.oks hw
  obtain ⟨-, -, o4⟩ := hc2.oks hw
  obtain ⟨r1, k1, rfl⟩ := (withdraw_exec_eq hw hc1 _).mp h1
  obtain ⟨r2, k2, rfl⟩ := (withdraw_exec_eq hw hc2 _).mp h2
  obtain ⟨-, -, -, -, s1⟩ := withdraw_same o1 o2 o3 k1
  obtain ⟨-, -, -, -, s2⟩ := withdraw_same o1 o2 o4 k2
  exact stakeWorld_alike hc1 hc2 s1 s2 (withdraw_alike o1.history o1.sorted (member_fine h hn hc1.mining)
    (delegate_fine h hn hc1.delegate) (delegate_fine h hn hc2.delegate) k1 k2)

/-- C81, extending. -/
theorem C81_extend {s : Chain} (h : Reachable env s) (hn : s.now < 2 ^ 64) {accs1 accs2 : List AccountInfo}
    {P M A1 A2 D1 D2 : AccountInfo} {rest1 rest2 : List AccountInfo} {p : Pool} {m : Mining} {d1 d2 : Option Mining}
    {owner e1 e2 : Key} {old new : LockupPeriod} {ts b a : Nat}
    (hc1 : StakeReady env s.world accs1 P M A1 D1 rest1 p m d1 owner e1)
    (hc2 : StakeReady env s.world accs2 P M A2 D2 rest2 p m d2 owner e2) {w1 w2 : World}
    (h1 : exec env s.now s.world accs1 (.extendStake old new ts b a owner e1) = .ok (w1, none))
    (h2 : exec env s.now s.world accs2 (.extendStake old new ts b a owner e2) = .ok (w2, none)) :
    SameForStaker env w1 w2 P.key M.key D1.key D2.key (delegated d1 a) (delegated d2 a) := by
  have hw := reachable_wf h
  obtain ⟨o1, o2, o3⟩ := hc1.oks hw
  obtain ⟨-, -, o4⟩ := hc2.oks hw
  obtain ⟨r1, k1, rfl⟩ := (extend_exec_eq hw hc1 _).mp h1
  obtain ⟨r2, k2, rfl⟩ := (extend_exec_eq hw hc2 _).mp h2
  obtain ⟨-, -, -, -, s1⟩ := extend_same o1 o2 o3 k1
  obtain ⟨-, -, -, -, s2⟩ := extend_same o1 o2 o4 k2
  exact stakeWorld_alike hc1 hc2 s1 s2 (extend_alike o1.history o1.sorted (member_fine h hn hc1.mining)
    (delegate_fine h hn hc1.delegate) (delegate_fine h hn hc2.delegate) k1 k2)

end

/-! ## Examples -/

section Examples
open Demo

/-- User 120 with a stake of 500 locked for a year since the beginning, with and without the delegate 121, meets the
hypotheses; a flexible stake of theirs would be free. -/
example : Reachable Demo.env afterSettled ∧ afterSettled.now < 2 ^ 64 ∧
    RealSigners [W 100, W (mine 120 100), S 110, W (mine 121 100)] ∧ RealSigners [S 110, W 100, W (mine 120 100)] ∧
    ∃ p m x v,
    StakeReady Demo.env afterSettled.world [W 100, W (mine 120 100), S 110, W (mine 121 100)] (W 100) (W (mine 120 100))
      (S 110) (W (mine 121 100)) [] p m (some x) 120 121 ∧
    StakeReady Demo.env afterSettled.world [W 100, W (mine 120 100), S 110, W (mine 120 100)] (W 100) (W (mine 120 100))
      (S 110) (W (mine 120 100)) [] p m none 120 120 ∧
    SlashReady Demo.env afterSettled.world [S 110, W 100, W (mine 120 100)] (S 110) (W 100) (W (mine 120 100)) [] p m 120 ∧
    PoolUpToDate afterSettled.now p ∧ TokensFree afterSettled.now .flex (day0 + 100) ∧
    terms .oneYear = some (6, 365) ∧ afterSettled.now < midnight (day0 + 100) + 86400 * 365 ∧
    (midnight (day0 + 100) + 86400 * 365, v) ∈ p.diffs ∧ 500 * 6 - 500 ≤ v := by
  have h : hasPool afterSettled.world 100 (fun p => decide (p.depositAuthority = 110) &&
      decide ((∀ e ∈ p.diffs, midnight afterSettled.now < e.1) ∧ (midnight (day0 + 100) + 86400 * 365, 2500) ∈ p.diffs) &&
      memberB afterSettled.world 100 (mine 120 100) (fun m => decide (m.owner = 120)) &&
      memberB afterSettled.world 100 (mine 121 100) (fun x => decide (x.owner = 121))) = true := by decide +kernel
  have hn : afterSettled.now < 2 ^ 64 := by decide +kernel
  have ht : afterSettled.now < midnight (day0 + 100) + 86400 * 365 := by decide +kernel
  have hr : Reachable Demo.env afterSettled := after_reachable (by decide +kernel)
  generalize afterSettled = s at h hn hr ht ⊢
  obtain ⟨p, hp, h⟩ := hasPool_sound h
  simp only [Bool.and_eq_true, decide_eq_true_eq] at h
  obtain ⟨⟨⟨h1, h2, h3⟩, h6⟩, h7⟩ := h
  obtain ⟨m, hm, h8⟩ := memberB_sound h6
  obtain ⟨x, hx, h9⟩ := memberB_sound h7
  simp only [decide_eq_true_eq] at h8 h9
  exact ⟨hr, hn, by unfold RealSigners; decide, by unfold RealSigners; decide, p, m, x, 2500,
    ⟨rfl, hp, hm, h8.symm, ⟨h1.symm, rfl⟩, Or.inr ⟨by decide, x, rfl, hx, h9.symm⟩, by decide⟩,
    ⟨rfl, hp, hm, h8.symm, ⟨h1.symm, rfl⟩, Or.inl ⟨rfl, rfl⟩, by decide⟩,
    ⟨rfl, hp, hm, h8.symm, ⟨h1.symm, rfl⟩, by decide⟩, h2, Or.inl rfl, rfl, ht, h3, by decide⟩

/-- The extensions (of a running and of a flexible stake), and the same by hand, do succeed there. -/
example : (run s0 (settledStory ++ [extend 100 120 .oneYear .oneYear (day0 + 100) 500 20 120])).isSome = true ∧
    (run s0 (settledStory ++ [slash 100 120 500 3000 (some (day0 + 365 * DAY)),
      deposit 100 120 520 .oneYear 120])).isSome = true ∧
    (run s0 (settledStory ++ [extend 100 120 .flex .oneYear (day0 + 100) 400 20 121])).isSome = true ∧
    (run s0 (settledStory ++ [withdraw 100 120 400 121, deposit 100 120 420 .oneYear 121])).isSome = true ∧
    (run s0 (settledStory ++ [extend 100 120 .flex .oneYear (day0 + 100) 400 20 120])).isSome = true ∧
    (run s0 (settledStory ++ [deposit 100 120 20 .oneYear 121])).isSome = true ∧
    (run s0 (settledStory ++ [deposit 100 120 20 .oneYear 120])).isSome = true ∧
    (run s0 (settledStory ++ [withdraw 100 120 20 121])).isSome = true ∧
    (run s0 (settledStory ++ [withdraw 100 120 20 120])).isSome = true := by
  refine ⟨?_, ?_, ?_, ?_, ?_, ?_, ?_, ?_, ?_⟩ <;> decide +kernel

end Examples

end Verif
