import Verif.Lemmas.ExactExec
import Verif.Props.Ranges
import Verif.Lemmas.DemoOrderly
/-!
C75: made with the right accounts, an operation succeeds exactly if its conditions hold.

The conditions (`Spec/Exact.lean`) are about the stored numbers before the operation only.  They are necessary and
sufficient in every reachable state, so nothing else can block the operation, and nothing less will do.
-/

namespace Verif

open Spec

section
variable {env : Env}

theorem member_fine {s : Chain} (h : Reachable env s) (hn : s.now < 2 ^ 64) {P k : Key} {m : Mining}
    (hm : Member env s.world P k m) : Fine m :=
  ⟨(miningAt_ok (reachable_wf h) hm.1).1.sorted, ((C44_history h hn).minings k m hm.1).unclaimed⟩

theorem delegate_fine {s : Chain} (h : Reachable env s) (hn : s.now < 2 ^ 64) {P M D delegate : Key} {d : Option Mining}
    (hd : (D = M ∧ d = none) ∨ (D ≠ M ∧ ∃ x, d = some x ∧ Member env s.world P D x ∧ delegate = x.owner)) :
    ∀ x, d = some x → Fine x := by
  rcases hd with ⟨-, rfl⟩ | ⟨-, y, rfl, hy, -⟩
  · intro x hx; cases hx
  · intro x hx; cases hx; exact member_fine h hn hy

/-- C75, withdrawing: `a` can be withdrawn exactly if the rewards can be computed, and staker, pool and delegate each have
`a` on the day. -/
theorem C75_withdraw {s : Chain} (h : Reachable env s) (hn : s.now < 2 ^ 64) {accs : List AccountInfo}
    {P M A D : AccountInfo} {rest : List AccountInfo} {p : Pool} {m : Mining} {d : Option Mining} {owner delegate : Key}
    {a : Nat} (hc : StakeReady env s.world accs P M A D rest p m d owner delegate) :
    (∃ w', exec env s.now s.world accs (.withdrawMining a owner delegate) = .ok (w', none)) ↔
      WithdrawOk s.now p m d a := by
  have hw := reachable_wf h
  have gp := (poolAt_good hw hc.pool).ok
  rw [withdraw_exec_iff hw hc]
  exact withdraw_exact gp.history gp.sorted (member_fine h hn hc.mining) (delegate_fine h hn hc.delegate)

/-- C75, depositing: `a` can be deposited for a period exactly if the period has terms, and all numbers that result fit
into 64 bits. -/
theorem C75_deposit {s : Chain} (h : Reachable env s) (hn : s.now < 2 ^ 64) {accs : List AccountInfo}
    {P M A D : AccountInfo} {rest : List AccountInfo} {p : Pool} {m : Mining} {d : Option Mining} {owner delegate : Key}
    {a : Nat} {per : LockupPeriod} (hc : StakeReady env s.world accs P M A D rest p m d owner delegate) :
    (∃ w', exec env s.now s.world accs (.depositMining a per owner delegate) = .ok (w', none)) ↔
      ∃ k n, terms per = some (k, n) ∧ DepositOk s.now p m d a k n := by
  have hw := reachable_wf h
  have gp := (poolAt_good hw hc.pool).ok
  rw [deposit_exec_iff hw hc]
  exact deposit_exact gp.history gp.sorted (member_fine h hn hc.mining) (delegate_fine h hn hc.delegate)

/-- C75, extending: a stake of `b` can be extended exactly if the new period has terms, the old stake can be taken out as
`Unlocks` says, and the new one can be put in. -/
theorem C75_extend {s : Chain} (h : Reachable env s) (hn : s.now < 2 ^ 64) {accs : List AccountInfo}
    {P M A D : AccountInfo} {rest : List AccountInfo} {p : Pool} {m : Mining} {d : Option Mining} {owner delegate : Key}
    {op np : LockupPeriod} {ts b a : Nat} (hc : StakeReady env s.world accs P M A D rest p m d owner delegate) :
    (∃ w', exec env s.now s.world accs (.extendStake op np ts b a owner delegate) = .ok (w', none)) ↔
      ∃ k n wt cut, terms np = some (k, n) ∧ Unlocks s.now m op ts b (midnight s.now + 86400 * n) wt cut ∧
        ExtendOk s.now p m d b a k n wt cut := by
  have hw := reachable_wf h
  have gp := (poolAt_good hw hc.pool).ok
  rw [extend_exec_iff hw hc]
  exact extend_exact gp.history gp.sorted (member_fine h hn hc.mining) (delegate_fine h hn hc.delegate)

/-- C75, changing the delegate: possible exactly if the old delegate has `a` and the new one can take it. -/
theorem C75_redelegate {s : Chain} (h : Reachable env s) (hn : s.now < 2 ^ 64) {accs : List AccountInfo}
    {P M A O X Y : AccountInfo} {rest : List AccountInfo} {p : Pool} {m : Mining} {od nd : Option Mining} {delegate : Key}
    {a : Nat} (hc : RedelegateReady env s.world accs P M A O X Y rest p m od nd delegate) :
    (∃ w', exec env s.now s.world accs (.changeDelegate a delegate) = .ok (w', none)) ↔
      RedelegateOk s.now p m od nd a := by
  have hw := reachable_wf h
  rw [redelegate_exec_iff hw hc]
  refine redelegate_exact (poolAt_good hw hc.pool).ok.history (member_fine h hn hc.mining) ?_ (delegate_fine h hn hc.new)
  rcases hc.old with ⟨-, rfl⟩ | ⟨-, y, rfl, hy⟩
  · intro x hx; cases hx
  · intro x hx; cases hx; exact member_fine h hn hy

/-- C75, slashing: possible exactly if the weight can be withdrawn and, for a locked stake, both tables have the lock. -/
theorem C75_slash {s : Chain} (h : Reachable env s) (hn : s.now < 2 ^ 64) {accs : List AccountInfo} {A P M : AccountInfo}
    {rest : List AccountInfo} {p : Pool} {m : Mining} {owner : Key} {n mu : Nat} {ex : Option Nat}
    (hc : SlashReady env s.world accs A P M rest p m owner) :
    (∃ w', exec env s.now s.world accs (.slash owner n mu ex) = .ok (w', none)) ↔ SlashOk s.now p m n mu ex := by
  have hw := reachable_wf h
  have gp := (poolAt_good hw hc.pool).ok
  rw [slash_exec_iff hw hc]
  exact slash_exact gp.history gp.sorted (member_fine h hn hc.mining)

/-- C75, penalties: a penalty of `n` is possible exactly if the staker's stored weight covers it. -/
theorem C75_decrease {s : Chain} (h : Reachable env s) {accs : List AccountInfo} {A P M : AccountInfo}
    {rest : List AccountInfo} {p : Pool} {m : Mining} {owner : Key} {n : Nat}
    (hc : DecreaseReady env s.world accs A P M rest p m owner) :
    (∃ w', exec env s.now s.world accs (.decreaseRewards owner n) = .ok (w', none)) ↔ DecreaseOk m n := by
  rw [decrease_exec_iff (reachable_wf h) hc]
  simp only [decreaseRewards_ok]
  unfold DecreaseOk
  constructor
  · rintro ⟨m', ⟨rfl, -⟩ | ⟨-, h1, -⟩⟩
    · exact Nat.zero_le _
    · exact h1
  · intro h1
    by_cases h0 : n = 0
    · exact ⟨m, Or.inl ⟨h0, rfl⟩⟩
    · exact ⟨_, Or.inr ⟨h0, h1, rfl⟩⟩

/-- C75, distributing: possible exactly if the pool has stake and its expirations can be taken out; for the first
distribution of the day there must be stake left after that, and the index must fit into 128 bits. -/
theorem C75_distribute {s : Chain} (h : Reachable env s) (hn : s.now < 2 ^ 64) {accs : List AccountInfo}
    {P B : AccountInfo} {rest : List AccountInfo} {p : Pool} (hc : DistributeReady env s.world accs P B rest p) :
    (∃ w', exec env s.now s.world accs .distributeRewards = .ok (w', none)) ↔ DistributeOk s.now p := by
  have hw := reachable_wf h
  have gp := (poolAt_good hw hc.pool).ok
  have ht := ((C44_history h hn).pools _ p hc.pool).tokens
  have hda := dailyAmount_le p.tokensAvailable p.distributionEndsAt s.now
  rw [distribute_exec_iff hw hc ht]
  have hP : PRECISION = 10 ^ 16 := rfl
  simp only [distribute_ok gp.sorted, bod_eq_midnight, SMap.contains_iff, hP]
  unfold U128
  constructor
  · rintro ⟨p', h1, h2, ⟨⟨e, h3, h4⟩, -⟩ | ⟨h3, -, h4, h5, -⟩⟩
    · exact ⟨⟨h2, h1⟩, fun h => absurd h4 (h _ h3)⟩
    · exact ⟨⟨h2, h1⟩, fun _ => ⟨by omega, h5⟩⟩
  · rintro ⟨⟨h1, h2⟩, h3⟩
    by_cases hd : ∃ e ∈ p.cumulative, e.1 = midnight s.now
    · exact ⟨_, h2, h1, Or.inl ⟨hd, rfl⟩⟩
    · obtain ⟨h4, h5⟩ := h3 fun e he hm => hd ⟨e, he, hm⟩
      exact ⟨_, h2, h1, Or.inr ⟨hd, by omega, by omega, h5, hda, rfl⟩⟩

/-- C75, claiming: a claim pays `n` exactly if the rewards can be computed, `n` is what is due, and the vault has it. -/
theorem C75_claim {s : Chain} (h : Reachable env s) (hn : s.now < 2 ^ 64) {accs : List AccountInfo}
    {P T V M O A U K : AccountInfo} {rest : List AccountInfo} {p : Pool} {m : Mining} {t u : TokenAcc} {n : Nat}
    (hc : ClaimReady env s.world accs P T V M O A U K rest p m t u) :
    (∃ w', exec env s.now s.world accs .claim = .ok (w', some n)) ↔
      ClaimOk s.now p m t ∧ n = due s.now p.cumulative m := by
  have hw := reachable_wf h
  have gp := (poolAt_good hw hc.pool).ok
  rw [claim_exec_iff hw hc]
  simp only [refresh_settle gp.history (member_fine h hn hc.mining)]
  constructor
  · rintro ⟨m1, ⟨h1, rfl⟩, h2, rfl⟩; exact ⟨⟨h1, h2⟩, rfl⟩
  · rintro ⟨⟨h1, h2⟩, rfl⟩; exact ⟨_, ⟨h1, rfl⟩, h2, rfl⟩

/-- C75, closing: a mining can be closed exactly if the rewards can be computed, there are none, and nobody delegates to
it.  (Its own stake does not matter.) -/
theorem C75_close {s : Chain} (h : Reachable env s) (hn : s.now < 2 ^ 64) {accs : List AccountInfo}
    {M O G A P : AccountInfo} {rest : List AccountInfo} {p : Pool} {m : Mining}
    (hc : CloseReady env s.world accs M O G A P rest p m) :
    (∃ w', exec env s.now s.world accs .closeMining = .ok (w', none)) ↔ CloseOk s.now p m := by
  have hw := reachable_wf h
  have gp := (poolAt_good hw hc.pool).ok
  rw [close_exec_iff hw hc]
  simp only [refresh_settle gp.history (member_fine h hn hc.mining)]
  constructor
  · rintro ⟨m1, ⟨h1, rfl⟩, h2, h3⟩; exact ⟨h1, h3, h2⟩
  · rintro ⟨h1, h3, h2⟩; exact ⟨_, ⟨h1, rfl⟩, h2, h3⟩

/-- C75, filling: the vault can be filled with `r` until `e` exactly if `r` is positive, the source has it, the end is not
before today and not before the present end, and the budget fits into 64 bits. -/
theorem C75_fill {s : Chain} (h : Reachable env s) {accs : List AccountInfo}
    {P T V F S K : AccountInfo} {rest : List AccountInfo} {p : Pool} {t u : TokenAcc} {r e : Nat} (he : e < 2 ^ 64)
    (hc : FillReady env s.world accs P T V F S K rest p t u) :
    (∃ w', exec env s.now s.world accs (.fillVault r e) = .ok (w', none)) ↔ FillOk s.now p t r e :=
  fill_exec_iff (reachable_wf h) he hc

end

/-! ## Examples: the hypotheses are met, and both sides of each equivalence occur -/

section Examples
open Demo

/-- Calls of users 120 (who delegates to 121) and 121 with the right accounts. -/
example : Reachable Demo.env afterStory ∧ afterStory.now < 2 ^ 64 ∧ ∃ p m x,
    StakeReady Demo.env afterStory.world [W 100, W (mine 120 100), S 110, W (mine 121 100)] (W 100) (W (mine 120 100))
      (S 110) (W (mine 121 100)) [] p m (some x) 120 121 ∧
    RedelegateReady Demo.env afterStory.world
      [W 100, W (mine 120 100), S 110, S 120, W (mine 121 100), W (mine 120 100)] (W 100) (W (mine 120 100)) (S 110) (S 120)
      (W (mine 121 100)) (W (mine 120 100)) [] p m (some x) none 120 ∧
    SlashReady Demo.env afterStory.world [S 110, W 100, W (mine 120 100)] (S 110) (W 100) (W (mine 120 100)) [] p m 120 ∧
    DecreaseReady Demo.env afterStory.world [S 110, R 100, W (mine 120 100)] (S 110) (R 100) (W (mine 120 100)) [] p m 120 ∧
    DistributeReady Demo.env afterStory.world [W 100, S 111] (W 100) (S 111) [] p ∧
    CloseReady Demo.env afterStory.world [W (mine 120 100), S 120, W 102, S 110, R 100] (W (mine 120 100)) (S 120) (W 102)
      (S 110) (R 100) [] p m := by
  have h : hasPool afterStory.world 100 (fun p => decide (p.depositAuthority = 110 ∧ p.distributeAuthority = 111) &&
      memberB afterStory.world 100 (mine 120 100) (fun m => decide (m.owner = 120)) &&
      memberB afterStory.world 100 (mine 121 100) (fun x => decide (x.owner = 121))) = true := by decide +kernel
  obtain ⟨p, hp, h⟩ := hasPool_sound h
  simp only [Bool.and_eq_true, decide_eq_true_eq] at h
  obtain ⟨⟨⟨h1, h2⟩, h6⟩, h7⟩ := h
  obtain ⟨m, hm, h8⟩ := memberB_sound h6
  obtain ⟨x, hx, h9⟩ := memberB_sound h7
  simp only [decide_eq_true_eq] at h8 h9
  exact ⟨afterStory_reachable, by decide +kernel, p, m, x,
    ⟨rfl, hp, hm, h8.symm, ⟨h1.symm, rfl⟩, Or.inr ⟨by decide, x, rfl, hx, h9.symm⟩, by decide⟩,
    ⟨rfl, hp, hm, ⟨h8.symm, rfl⟩, ⟨h1.symm, rfl⟩, by decide, Or.inr ⟨by decide, x, rfl, hx⟩, Or.inl ⟨rfl, rfl⟩, by decide⟩,
    ⟨rfl, hp, hm, h8.symm, ⟨h1.symm, rfl⟩, by decide⟩, ⟨rfl, hp, hm, h8.symm, ⟨h1.symm, rfl⟩, by decide⟩,
    ⟨rfl, hp, ⟨h2.symm, rfl⟩, by decide⟩,
    ⟨rfl, hp, hm, ⟨h8.symm, rfl⟩, ⟨h1.symm, rfl⟩, by decide +kernel, by decide⟩⟩

/-- A claim of user 120, and a filling of the vault, with the right accounts. -/
example : (∃ p m t u, ClaimReady Demo.env afterStory.world
      [R 100, R 101, W (vaultOf 100 101), W (mine 120 100), S 120, S 110, W 130, R 2] (R 100) (R 101) (W (vaultOf 100 101))
      (W (mine 120 100)) (S 120) (S 110) (W 130) (R 2) [] p m t u) ∧
    ∃ p t u, FillReady Demo.env afterStory.world
      [W 100, R 101, W (vaultOf 100 101), S 112, W 113, R 2] (W 100) (R 101) (W (vaultOf 100 101)) (S 112) (W 113) (R 2) []
      p t u := by
  constructor
  · have h : hasPool afterStory.world 100 (fun p => hasMining afterStory.world (mine 120 100) (fun m =>
        hasToken afterStory.world (vaultOf 100 101) (fun t => hasToken afterStory.world 130 (fun u =>
          decide (p.rewardMint = 101 ∧ Demo.env.findVault 100 101 = some (vaultOf 100 101, p.bump) ∧ m.rewardPool = 100 ∧
            m.owner = 120 ∧ p.depositAuthority = 110 ∧ u.owner = 120 ∧ t.frozen = false ∧ u.frozen = false ∧
            t.native = false ∧ t.mint = u.mint ∧ t.owner = 110 ∧ t.delegate ≠ some 110 ∧ t.amount + u.amount < 2 ^ 64 ∧
            (afterStory.world 130).lamports < 2 ^ 64 ∧ (afterStory.world 101).owner = Demo.env.tokenProgram ∧
            (afterStory.world 110).owner ≠ Demo.env.tokenProgram))))) = true := by
      decide +kernel
    generalize afterStory.world = w at h ⊢
    obtain ⟨p, hp, h⟩ := hasPool_sound h
    obtain ⟨m, hm, h⟩ := hasMining_sound h
    obtain ⟨t, ht, h⟩ := hasToken_sound h
    obtain ⟨u, hu, h⟩ := hasToken_sound h
    simp only [decide_eq_true_eq] at h
    obtain ⟨a1, a2, a3, a4, a5, a6, a7, a8, a9, a10, a11, a12, a13, a14, a15, a16⟩ := h
    exact ⟨p, m, t, u, rfl, hp, ⟨a1.symm, a15⟩, ⟨a2, ht⟩, ⟨hm, a3⟩, ⟨a4.symm, rfl⟩, ⟨a5.symm, rfl⟩,
    fun h => a16 h.1, ⟨hu, a6⟩, rfl,
      ⟨a7, a8, a9, a10, a11, a12, a13, a14⟩, by decide⟩
  · have h : hasPool afterStory.world 100 (fun p => hasToken afterStory.world 113 (fun t =>
        hasToken afterStory.world (vaultOf 100 101) (fun u =>
          decide (p.rewardMint = 101 ∧ Demo.env.findVault 100 101 = some (vaultOf 100 101, p.bump) ∧ p.fillAuthority = 112 ∧
            t.owner = 112 ∧ t.delegate ≠ some 112 ∧ t.frozen = false ∧ u.frozen = false ∧
            t.native = false ∧ t.mint = u.mint ∧ t.amount + u.amount < 2 ^ 64 ∧
            (afterStory.world (vaultOf 100 101)).lamports < 2 ^ 64 ∧
            (afterStory.world 101).owner = Demo.env.tokenProgram ∧
            (afterStory.world 112).owner ≠ Demo.env.tokenProgram)))) = true := by
      decide +kernel
    generalize afterStory.world = w at h ⊢
    obtain ⟨p, hp, h⟩ := hasPool_sound h
    obtain ⟨t, ht, h⟩ := hasToken_sound h
    obtain ⟨u, hu, h⟩ := hasToken_sound h
    simp only [decide_eq_true_eq] at h
    obtain ⟨a1, a2, a3, a4, a5, a6, a7, a8, a9, a10, a11, a12, a13⟩ := h
    exact ⟨p, t, u, ⟨rfl, hp, ⟨a1.symm, a12⟩, ⟨a2, hu⟩, ⟨a3.symm, rfl, by decide⟩, fun h => a13 h.1,
    ⟨ht, a4, a5⟩, rfl,
      ⟨a6, a7, a8, a9, a10, a11⟩, by decide⟩⟩

/-- Of the calls of the first example some succeed and some do not: 500 can be withdrawn or taken back, not 501 (the delegate
has 500); a stake can be extended from the date it was made on, not from another; and so on. -/
example :
    okEvent afterStory (withdraw 100 120 500 121) = true ∧ okEvent afterStory (withdraw 100 120 501 121) = false ∧
    okEvent afterStory (deposit 100 120 70 .sixMonths 121) = true ∧
    okEvent afterStory (deposit 100 120 (2 ^ 62) .sixMonths 121) = false ∧
    okEvent afterStory (extend 100 120 .oneYear .oneYear (day0 + 100) 500 20 121) = true ∧
    okEvent afterStory (extend 100 120 .oneYear .oneYear (day0 + 5 * DAY) 500 20 121) = false ∧
    okEvent afterStory (redelegate 100 120 500 121 120) = true ∧ okEvent afterStory (redelegate 100 120 501 121 120) = false ∧
    okEvent afterStory (slash 100 120 50 300 (some (day0 + 365 * DAY))) = true ∧
    okEvent afterStory (slash 100 120 50 300 (some (day0 + 364 * DAY))) = false ∧
    okEvent afterStory (decrease 100 120 3000) = true ∧ okEvent afterStory (decrease 100 120 3001) = false ∧
    okEvent afterStory (distribute 100) = true ∧ okEvent afterStory (claim 100 120 130) = true ∧
    okEvent afterStory (close 100 120) = false ∧ okEvent (afterStory.apply Demo.env (claim 100 120 130)) (close 100 120) = true ∧
    okEvent afterStory (fill 100 5000 (day0 + 20 * DAY)) = true ∧
    okEvent afterStory (fill 100 5000 (day0 + 9 * DAY)) = false := by
  refine ⟨?_, ?_, ?_, ?_, ?_, ?_, ?_, ?_, ?_, ?_, ?_, ?_, ?_, ?_, ?_, ?_, ?_, ?_⟩ <;> decide +kernel

end Examples

end Verif
