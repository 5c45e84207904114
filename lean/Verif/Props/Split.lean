import Verif.Lemmas.RoundTrip
import Verif.Props.Exact
/-!
C76: an operation on an amount has the same effect as two operations on the two parts of the amount.
C77: operations that are the reverse of each other leave nothing behind.

Both need that the minings of the delegates are up to date; the last section shows what happens otherwise.
-/

namespace Verif

open Spec

section
variable {env : Env}

/-! ## C76: splitting -/

/-- C76, withdrawing: withdrawing `a + b` is withdrawing `a` and then `b`. -/
theorem C76_withdraw {s : Chain} (h : Reachable env s) (hn : s.now < 2 ^ 64) {accs : List AccountInfo}
    (hs : RealSigners accs) {P M A D : AccountInfo} {rest : List AccountInfo} {p : Pool} {m : Mining} {d : Option Mining}
    {owner delegate : Key} {a b : Nat} (hc : StakeReady env s.world accs P M A D rest p m d owner delegate)
    (hu : ∀ x, d = some x → UpToDate s.now p.cumulative x) :
    SameAsTwo env s.now s.world accs (.withdrawMining (a + b) owner delegate) (.withdrawMining a owner delegate)
      (.withdrawMining b owner delegate) :=
  withdraw_twice (reachable_wf h) hs hc (member_fine h hn hc.mining) (delegate_fine h hn hc.delegate) hu

/-- C76, depositing: depositing `a + b` for a period is depositing `a` and then `b` for the same period, unless the first
part alone takes the stake of the mining out of the range in which rewards can be computed. -/
theorem C76_deposit {s : Chain} (h : Reachable env s) (hn : s.now < 2 ^ 64) {accs : List AccountInfo}
    (hs : RealSigners accs) {P M A D : AccountInfo} {rest : List AccountInfo} {p : Pool} {m : Mining} {d : Option Mining}
    {owner delegate : Key} {a b : Nat} {per : LockupPeriod}
    (hc : StakeReady env s.world accs P M A D rest p m d owner delegate)
    (hu : ∀ x, d = some x → UpToDate s.now p.cumulative x)
    (hfit : ∀ k n, terms per = some (k, n) → m.share + m.stakeFromOthers + a * k < 2 ^ 64) :
    SameAsTwo env s.now s.world accs (.depositMining (a + b) per owner delegate) (.depositMining a per owner delegate)
      (.depositMining b per owner delegate) := by
  cases ht : terms per with
  | some t =>
    exact deposit_twice (reachable_wf h) hs ht hc (member_fine h hn hc.mining) (delegate_fine h hn hc.delegate) hu
      (hfit t.1 t.2 ht)
  | none =>
    have key : ∀ c w', exec env s.now s.world accs (.depositMining c per owner delegate) ≠ .ok (w', none) := by
      intro c w' hx
      obtain ⟨k, n, h1, -⟩ := (C75_deposit h hn hc).mp ⟨w', hx⟩
      rw [ht] at h1; cases h1
    intro w'
    exact ⟨fun hx => absurd hx (key _ _), fun ⟨_, h1, _⟩ => absurd h1 (key _ _)⟩

/-- C76, moving delegated stake: moving `a + b` is moving `a` and then `b`, if the pool's total covers what is taken from a
delegate. -/
theorem C76_redelegate {s : Chain} (h : Reachable env s) (hn : s.now < 2 ^ 64) {accs : List AccountInfo}
    (hs : RealSigners accs) {P M A O X Y : AccountInfo} {rest : List AccountInfo} {p : Pool} {m : Mining}
    {od nd : Option Mining} {delegate : Key} {a b : Nat}
    (hc : RedelegateReady env s.world accs P M A O X Y rest p m od nd delegate)
    (huo : ∀ x, od = some x → UpToDate s.now p.cumulative x) (hun : ∀ x, nd = some x → UpToDate s.now p.cumulative x)
    (hfit : od.isSome = true → a + b ≤ p.totalShare) :
    SameAsTwo env s.now s.world accs (.changeDelegate (a + b) delegate) (.changeDelegate a delegate)
      (.changeDelegate b delegate) := by
  refine redelegate_twice (reachable_wf h) hs hc (member_fine h hn hc.mining) ?_ ?_ huo hun
    ((C44_history h hn).pools _ p hc.pool).total hfit
  · rcases hc.old with ⟨-, rfl⟩ | ⟨-, y, rfl, hy⟩
    · intro x hx; cases hx
    · intro x hx; cases hx; exact member_fine h hn hy
  · rcases hc.new with ⟨-, rfl⟩ | ⟨-, y, rfl, hy, -⟩
    · intro x hx; cases hx
    · intro x hx; cases hx; exact member_fine h hn hy

/-- C76, slashing: slashing in one go is slashing in two, if no part takes more tokens than weight. -/
theorem C76_slash {s : Chain} (h : Reachable env s) (hn : s.now < 2 ^ 64) {accs : List AccountInfo}
    (hs : RealSigners accs) {A P M : AccountInfo} {rest : List AccountInfo} {p : Pool} {m : Mining} {owner : Key}
    {n1 n2 mu1 mu2 : Nat} {ex : Option Nat} (hc : SlashReady env s.world accs A P M rest p m owner)
    (h1 : n1 ≤ mu1) (h2 : n2 ≤ mu2) :
    SameAsTwo env s.now s.world accs (.slash owner (n1 + n2) (mu1 + mu2) ex) (.slash owner n1 mu1 ex)
      (.slash owner n2 mu2 ex) :=
  slash_twice (reachable_wf h) hs hc (member_fine h hn hc.mining) ⟨h1, h2⟩

/-- C76, penalties: a penalty of `n1 + n2` is a penalty of `n1` and then one of `n2`. -/
theorem C76_decrease {s : Chain} (h : Reachable env s) {accs : List AccountInfo} (hs : RealSigners accs)
    {A P M : AccountInfo} {rest : List AccountInfo} {p : Pool} {m : Mining} {owner : Key} {n1 n2 : Nat}
    (hc : DecreaseReady env s.world accs A P M rest p m owner) :
    SameAsTwo env s.now s.world accs (.decreaseRewards owner (n1 + n2)) (.decreaseRewards owner n1)
      (.decreaseRewards owner n2) :=
  decrease_twice (reachable_wf h) hs hc

/-- C76, filling: filling the vault with `a + b` is filling it with `a` and then with `b`. -/
theorem C76_fill {s : Chain} (h : Reachable env s) {accs : List AccountInfo} (hs : RealSigners accs)
    {P T V F S K : AccountInfo} {rest : List AccountInfo} {p : Pool} {t u : TokenAcc} {a b e : Nat} (he : e < 2 ^ 64)
    (hc : FillReady env s.world accs P T V F S K rest p t u) (hSV : S.key ≠ V.key) (ha : 0 < a) (hb : 0 < b) :
    SameAsTwo env s.now s.world accs (.fillVault (a + b) e) (.fillVault a e) (.fillVault b e) :=
  fill_twice (reachable_wf h) hs he hc hSV ha hb

/-! ## C77: round trips -/

/-- C77, depositing and withdrawing: a flexible deposit that is withdrawn again at once leaves no trace: nobody has gained
or lost stake, and nobody has been credited anything that was not due before. -/
theorem C77_deposit_withdraw {s : Chain} (h : Reachable env s) (hn : s.now < 2 ^ 64) {accs : List AccountInfo}
    (hs : RealSigners accs) {P M A D : AccountInfo} {rest : List AccountInfo} {p : Pool} {m : Mining} {d : Option Mining}
    {owner delegate : Key} {a : Nat} (hc : StakeReady env s.world accs P M A D rest p m d owner delegate)
    (hu : ∀ x, d = some x → UpToDate s.now p.cumulative x) {w1 w2 : World}
    (h1 : exec env s.now s.world accs (.depositMining a .flex owner delegate) = .ok (w1, none))
    (h2 : exec env s.now w1 accs (.withdrawMining a owner delegate) = .ok (w2, none)) :
    OnlyUpToDate env s.now s.world w2 P.key M.key p m :=
  (deposit_withdraw_exec (reachable_wf h) hs hc (member_fine h hn hc.mining) (delegate_fine h hn hc.delegate) hu h1).1 h2

/-- C77, a flexible deposit can be withdrawn again at once (unless it has taken the stake of the mining out of the range in
which rewards can be computed, or the pool does not have the stake of its expirations). -/
theorem C77_deposit_can_be_withdrawn {s : Chain} (h : Reachable env s) (hn : s.now < 2 ^ 64) {accs : List AccountInfo}
    (hs : RealSigners accs) {P M A D : AccountInfo} {rest : List AccountInfo} {p : Pool} {m : Mining} {d : Option Mining}
    {owner delegate : Key} {a : Nat} (hc : StakeReady env s.world accs P M A D rest p m d owner delegate)
    (hu : ∀ x, d = some x → UpToDate s.now p.cumulative x) {w1 : World}
    (h1 : exec env s.now s.world accs (.depositMining a .flex owner delegate) = .ok (w1, none))
    (hp : dueBy p.diffs (midnight s.now) ≤ p.totalShare) (hfit : m.share + m.stakeFromOthers + a < 2 ^ 64) :
    ∃ w2, exec env s.now w1 accs (.withdrawMining a owner delegate) = .ok (w2, none) :=
  (deposit_withdraw_exec (w2 := w1) (reachable_wf h) hs hc (member_fine h hn hc.mining) (delegate_fine h hn hc.delegate)
    hu h1).2 hp hfit

/-- C77, withdrawing and depositing again: the same the other way round. -/
theorem C77_withdraw_deposit {s : Chain} (h : Reachable env s) (hn : s.now < 2 ^ 64) {accs : List AccountInfo}
    (hs : RealSigners accs) {P M A D : AccountInfo} {rest : List AccountInfo} {p : Pool} {m : Mining} {d : Option Mining}
    {owner delegate : Key} {a : Nat} (hc : StakeReady env s.world accs P M A D rest p m d owner delegate)
    (hu : ∀ x, d = some x → UpToDate s.now p.cumulative x) {w1 w2 : World}
    (h1 : exec env s.now s.world accs (.withdrawMining a owner delegate) = .ok (w1, none))
    (h2 : exec env s.now w1 accs (.depositMining a .flex owner delegate) = .ok (w2, none)) :
    OnlyUpToDate env s.now s.world w2 P.key M.key p m :=
  withdraw_deposit_exec (reachable_wf h) hs hc (member_fine h hn hc.mining) (delegate_fine h hn hc.delegate) hu h1 h2

/-- C77, depositing and slashing: slashing a deposit at once, with its weight and the end of its lock, takes back all that
the deposit gave. -/
theorem C77_deposit_slash {s : Chain} (h : Reachable env s) (hn : s.now < 2 ^ 64) {accs accs' : List AccountInfo}
    (hs : RealSigners accs) {P M A D A' : AccountInfo} {rest rest' : List AccountInfo} {p : Pool} {m : Mining}
    {owner delegate : Key} {a k n : Nat} {per : LockupPeriod} (ht : terms per = some (k, n))
    (hc : StakeReady env s.world accs P M A D rest p m none owner delegate)
    (hc' : SlashReady env s.world accs' A' P M rest' p m owner) {w1 w2 : World}
    (h1 : exec env s.now s.world accs (.depositMining a per owner delegate) = .ok (w1, none))
    (h2 : exec env s.now w1 accs' (.slash owner a (a * k) (some (midnight s.now + 86400 * n))) = .ok (w2, none)) :
    OnlyUpToDate env s.now s.world w2 P.key M.key p m :=
  deposit_slash_exec (reachable_wf h) hs ht hc hc' (member_fine h hn hc.mining) h1 h2

/-- C77, moving delegated stake and back: the way back succeeds, and the state is exactly the one before. -/
theorem C77_redelegate_back {s : Chain} (h : Reachable env s) (hn : s.now < 2 ^ 64) {accs accs' : List AccountInfo}
    (hs : RealSigners accs) {P M A O X Y : AccountInfo} {rest rest' : List AccountInfo} {p : Pool} {m : Mining}
    {od nd : Option Mining} {delegate delegate' : Key} {a : Nat}
    (hc : RedelegateReady env s.world accs P M A O X Y rest p m od nd delegate)
    (hc' : RedelegateReady env s.world accs' P M A O Y X rest' p m nd od delegate')
    (hum : UpToDate s.now p.cumulative m) (huo : ∀ x, od = some x → UpToDate s.now p.cumulative x)
    (hun : ∀ x, nd = some x → UpToDate s.now p.cumulative x) {w1 : World}
    (h1 : exec env s.now s.world accs (.changeDelegate a delegate) = .ok (w1, none)) :
    exec env s.now w1 accs' (.changeDelegate a delegate') = .ok (s.world, none) := by
  refine redelegate_back_exec (reachable_wf h) hs hc hc' (member_fine h hn hc.mining) ?_ ?_ hum huo hun
    ((C44_history h hn).pools _ p hc.pool).total h1
  · rcases hc.old with ⟨-, rfl⟩ | ⟨-, y, rfl, hy⟩
    · intro x hx; cases hx
    · intro x hx; cases hx; exact member_fine h hn hy
  · rcases hc.new with ⟨-, rfl⟩ | ⟨-, y, rfl, hy, -⟩
    · intro x hx; cases hx
    · intro x hx; cases hx; exact member_fine h hn hy

end

/-! ## Examples -/

section Examples
open Demo

/-- The demo story, and then both users claim, so that their minings are up to date. -/
def settledStory : List Event := story ++ [claim 100 120 130, claim 100 121 131]

def afterSettled : Chain := (run s0 settledStory).getD s0

/-- User 120, who delegates to 121, meets the hypotheses of the theorems on stakes: both minings are up to date. -/
example : Reachable Demo.env afterSettled ∧ afterSettled.now < 2 ^ 64 ∧
    RealSigners [W 100, W (mine 120 100), S 110, W (mine 121 100)] ∧ ∃ p m x,
    StakeReady Demo.env afterSettled.world [W 100, W (mine 120 100), S 110, W (mine 121 100)] (W 100) (W (mine 120 100))
      (S 110) (W (mine 121 100)) [] p m (some x) 120 121 ∧
    UpToDate afterSettled.now p.cumulative x ∧ UpToDate afterSettled.now p.cumulative m ∧
    m.share + m.stakeFromOthers + 200 * 6 < 2 ^ 64 ∧ dueBy p.diffs (midnight afterSettled.now) ≤ p.totalShare ∧
    RedelegateReady Demo.env afterSettled.world
      [W 100, W (mine 120 100), S 110, S 120, W (mine 121 100), W (mine 120 100)] (W 100) (W (mine 120 100)) (S 110) (S 120)
      (W (mine 121 100)) (W (mine 120 100)) [] p m (some x) none 120 ∧
    RedelegateReady Demo.env afterSettled.world
      [W 100, W (mine 120 100), S 110, S 120, W (mine 120 100), W (mine 121 100)] (W 100) (W (mine 120 100)) (S 110) (S 120)
      (W (mine 120 100)) (W (mine 121 100)) [] p m none (some x) 121 ∧ 100 + 400 ≤ p.totalShare ∧
    SlashReady Demo.env afterSettled.world [S 110, W 100, W (mine 120 100)] (S 110) (W 100) (W (mine 120 100)) [] p m 120 ∧
    StakeReady Demo.env afterSettled.world [W 100, W (mine 120 100), S 110, W (mine 120 100)] (W 100) (W (mine 120 100))
      (S 110) (W (mine 120 100)) [] p m none 120 120 := by
  have h : hasPool afterSettled.world 100 (fun p => decide (p.depositAuthority = 110) &&
      memberB afterSettled.world 100 (mine 120 100) (fun m => decide (m.owner = 120 ∧
        m.index = indexBefore p.cumulative afterSettled.now ∧ (∀ e ∈ m.diffs, midnight afterSettled.now < e.1) ∧
        m.share + m.stakeFromOthers < 2 ^ 64 ∧ m.share + m.stakeFromOthers + 200 * 6 < 2 ^ 64 ∧
        dueBy p.diffs (midnight afterSettled.now) ≤ p.totalShare ∧ 100 + 400 ≤ p.totalShare)) &&
      memberB afterSettled.world 100 (mine 121 100) (fun x => decide (x.owner = 121 ∧
        x.index = indexBefore p.cumulative afterSettled.now ∧ (∀ e ∈ x.diffs, midnight afterSettled.now < e.1) ∧
        x.share + x.stakeFromOthers < 2 ^ 64))) = true := by decide +kernel
  have hn : afterSettled.now < 2 ^ 64 := by decide +kernel
  have hr : Reachable Demo.env afterSettled := after_reachable (by decide +kernel)
  generalize afterSettled = s at h hn hr ⊢
  obtain ⟨p, hp, h⟩ := hasPool_sound h
  simp only [Bool.and_eq_true, decide_eq_true_eq] at h
  obtain ⟨⟨h1, h6⟩, h7⟩ := h
  obtain ⟨m, hm, h8⟩ := memberB_sound h6
  obtain ⟨x, hx, h9⟩ := memberB_sound h7
  simp only [decide_eq_true_eq] at h8 h9
  obtain ⟨a1, a2, a3, a4, a5, a6, a7⟩ := h8
  obtain ⟨b1, b2, b3, b4⟩ := h9
  exact ⟨hr, hn, by unfold RealSigners; decide, p, m, x,
    ⟨rfl, hp, hm, a1.symm, ⟨h1.symm, rfl⟩, Or.inr ⟨by decide, x, rfl, hx, b1.symm⟩, by decide⟩, ⟨b2, b3, b4⟩, ⟨a2, a3, a4⟩,
    a5, a6,
    ⟨rfl, hp, hm, ⟨a1.symm, rfl⟩, ⟨h1.symm, rfl⟩, by decide, Or.inr ⟨by decide, x, rfl, hx⟩, Or.inl ⟨rfl, rfl⟩, by decide⟩,
    ⟨rfl, hp, hm, ⟨a1.symm, rfl⟩, ⟨h1.symm, rfl⟩, by decide, Or.inl ⟨rfl, rfl⟩, Or.inr ⟨by decide, x, rfl, hx, b1.symm⟩,
      by decide⟩, a7,
    ⟨rfl, hp, hm, a1.symm, ⟨h1.symm, rfl⟩, by decide⟩,
    ⟨rfl, hp, hm, a1.symm, ⟨h1.symm, rfl⟩, Or.inl ⟨rfl, rfl⟩, by decide⟩⟩

/-- These operations do succeed there, in one go, in two parts, and back and forth. -/
example : (run s0 (settledStory ++ [deposit 100 120 300 .oneYear 121])).isSome = true ∧
    (run s0 (settledStory ++ [deposit 100 120 200 .oneYear 121, deposit 100 120 100 .oneYear 121])).isSome = true ∧
    (run s0 (settledStory ++ [deposit 100 120 300 .flex 121, withdraw 100 120 300 121])).isSome = true ∧
    (run s0 (settledStory ++ [withdraw 100 120 300 121, deposit 100 120 300 .flex 121])).isSome = true ∧
    (run s0 (settledStory ++ [redelegate 100 120 500 121 120, redelegate 100 120 500 120 121])).isSome = true ∧
    (run s0 (settledStory ++ [deposit 100 120 300 .oneYear 120,
      slash 100 120 300 1800 (some (day0 + 366 * DAY))])).isSome = true ∧
    (run s0 (settledStory ++ [slash 100 120 20 120 (some (day0 + 365 * DAY)),
      slash 100 120 30 180 (some (day0 + 365 * DAY))])).isSome = true ∧
    (run s0 (settledStory ++ [decrease 100 120 20, decrease 100 120 30])).isSome = true ∧
    (run s0 (settledStory ++ [fill 100 20 (day0 + 12 * DAY), fill 100 30 (day0 + 12 * DAY)])).isSome = true := by
  refine ⟨?_, ?_, ?_, ?_, ?_, ?_, ?_, ?_, ?_⟩ <;> decide +kernel

/-! ## Without up-to-date delegates -/

/-- The instructions `is`, one after the other in state `s` with accounts `accs`, lead to a state in which the mining at `k`
has `n` unclaimed. -/
def LeavesUnclaimed (s : Chain) (accs : List AccountInfo) (is : List Ix) (k : Key) (n : Nat) : Prop :=
  ∃ s', RunsWith Demo.env (CleanEvent Demo.env) s (is.map (Event.ix accs)) s' ∧
    ∃ m, MiningAt Demo.env s'.world k m ∧ m.unclaimed = n

theorem leavesUnclaimed {s : Chain} {accs : List AccountInfo} {is : List Ix} {k : Key} {n : Nat}
    (h : (run s (is.map (Event.ix accs))).isSome = true)
    (h' : hasMining ((run s (is.map (Event.ix accs))).getD s).world k (fun m => decide (m.unclaimed = n)) = true) :
    LeavesUnclaimed s accs is k n := by
  cases hr : run s (is.map (Event.ix accs)) with
  | none => rw [hr] at h; cases h
  | some x =>
    rw [hr] at h'
    obtain ⟨m, hm, e⟩ := hasMining_sound h'
    exact ⟨x, run_sound hr, m, hm, of_decide_eq_true e⟩

/-- C76 fails if the delegate is not up to date: delegating 2000 in one go credits the delegate for the past with all of
them (1728), delegating 1000 and another 1000 only with the first part (1234). -/
theorem C76_false_stale_delegate :
    LeavesUnclaimed afterStory [W 100, W (mine 120 100), S 110, W (mine 121 100)] [.depositMining (1000 + 1000) .flex 120 121]
      (mine 121 100) 1728 ∧
    LeavesUnclaimed afterStory [W 100, W (mine 120 100), S 110, W (mine 121 100)]
      [.depositMining 1000 .flex 120 121, .depositMining 1000 .flex 120 121] (mine 121 100) 1234 :=
  ⟨leavesUnclaimed (by decide +kernel) (by decide +kernel), leavesUnclaimed (by decide +kernel) (by decide +kernel)⟩

/-- C77 fails if the delegate is not up to date: 740 are due to the delegate, but a deposit of 2000 that is withdrawn again
in the same second leaves it with 1728. -/
theorem C77_false_stale_delegate :
    (∃ p x, PoolAt Demo.env afterStory.world 100 p ∧ Member Demo.env afterStory.world 100 (mine 121 100) x ∧
      due afterStory.now p.cumulative x = 740) ∧
    LeavesUnclaimed afterStory [W 100, W (mine 120 100), S 110, W (mine 121 100)]
      [.depositMining 2000 .flex 120 121, .withdrawMining 2000 120 121] (mine 121 100) 1728 := by
  refine ⟨?_, leavesUnclaimed (by decide +kernel) (by decide +kernel)⟩
  have h : hasPool afterStory.world 100 (fun p => memberB afterStory.world 100 (mine 121 100) (fun x =>
    decide (due afterStory.now p.cumulative x = 740))) = true := by decide +kernel
  generalize afterStory = s at h ⊢
  obtain ⟨p, hp, h⟩ := hasPool_sound h
  obtain ⟨x, hx, h⟩ := memberB_sound h
  exact ⟨p, x, hp, hx, of_decide_eq_true h⟩

end Examples

end Verif
