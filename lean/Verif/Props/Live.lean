import Verif.Lemmas.Live
import Verif.Props.Solvency
/-!
Properties about operations that must not be blocked: C52 (distributions), C53 (withdrawals), C54 (deposits and
extensions), C55 (changes of delegate).

Like C26 they are false without conditions on how the pool is run; the conditions are `Spec.Orderly`, the
counterexamples below show what goes wrong without them.
-/

namespace Verif

open Spec

section
variable {env : Env}

/-- C52 for orderly histories: as long as some mining of the pool earns with a stake today, a distribution made with the
right accounts succeeds, provided less than 2^64 tokens were ever filled.
Missing for the full property: histories that are not orderly; see `C52_false_early_extension`. -/
theorem C52_distribute_partial (hi : env.PdaInjective) {P V : Key} {s0 s : Chain} {es : List Event} (hg : Genesis env s0)
    (hr : RunsWith env (Orderly env P V) s0 es s) (hn : s.now < 2 ^ 64) {accs : List AccountInfo} {aP B : AccountInfo}
    {rest : List AccountInfo} {p : Pool} (hP : aP.key = P) (hc : DistributeReady env s.world accs aP B rest p)
    (hV : env.findVault P p.rewardMint = some (V, p.bump)) {k : Key} {m : Mining} (hm : Member env s.world P k m)
    (hpos : 0 < earningOn m (midnight s.now)) (hF : totalIn env (filledBy env P) s0 es < 2 ^ 64) :
    ∃ w', exec env s.now s.world accs .distributeRewards = .ok (w', none) := by
  subst hP
  have hP0 := orderly_pool_ne_zero hg hr hc.pool
  obtain ⟨-, hw, -, hs⟩ := runs_solvent hi hP0 hg hr hn
  have hb := hs.books p hc.pool hV
  have hcov := hb.cover (midnight s.now) (Nat.le_refl _) [k] (by simp)
  rw [sumOver_cons, show sumOver _ ([] : List Key) = 0 from rfl, ofMember_eq hm] at hcov
  have hidx := index_bound hg (hr.weaken fun s e h => Spec.Orderly.clean h) hc.pool
  obtain ⟨p', hd⟩ := distribute_succeeds (caps := env.caps) (r := dailyAmount p.tokensAvailable p.distributionEndsAt s.now)
    (poolAt_good hw hc.pool).ok (by omega) (dailyAmount_le _ _ _) (by omega)
  exact ⟨_, distribute_exec hw hc (by omega) hd⟩

/-- C53 for orderly histories: a withdrawal of unlocked stake made with the right accounts succeeds, provided the stake
recorded as delegated covers it and the vault's balance fits into 64 bits.
Missing for the full property: histories that are not orderly; see `C52_false_early_extension`. -/
theorem C53_withdraw_partial (hi : env.PdaInjective) {P V : Key} {s0 s : Chain} {es : List Event} (hg : Genesis env s0)
    (hr : RunsWith env (Orderly env P V) s0 es s) (hn : s.now < 2 ^ 64) {accs : List AccountInfo}
    {aP M A D : AccountInfo} {rest : List AccountInfo} {p : Pool} {m : Mining} {d : Option Mining} {owner delegate : Key}
    (hP : aP.key = P) (hc : StakeReady env s.world accs aP M A D rest p m d owner delegate)
    (hV : env.findVault P p.rewardMint = some (V, p.bump)) (hB : balance s.world V < 2 ^ 64) {a : Nat} (ha : Unlocked a m)
    (hd : ∀ x, d = some x → a ≤ x.stakeFromOthers) :
    ∃ w', exec env s.now s.world accs (.withdrawMining a owner delegate) = .ok (w', none) := by
  subst hP
  have hP0 := orderly_pool_ne_zero hg hr hc.pool
  obtain ⟨-, hw, -, hs⟩ := runs_solvent hi hP0 hg hr hn
  have ht := (hs.books p hc.pool hV).takes hw hc.pool hB hc.mining hc.delegates
  obtain ⟨⟨p', m', d'⟩, h⟩ := withdraw_succeeds ht ha hd
  exact ⟨_, withdraw_exec hw hc h⟩

/-- C54 for orderly histories: a deposit made with the right accounts succeeds, provided the amounts and dates fit into 64 bits,
and so do all tokens of the vault and what the deposit would have earned since the delegate was last brought up to date (nothing
if they are up to date).
Missing for the full property: histories that are not orderly; see `C54_false_locked_withdrawal`.  The condition on the delegate
is needed; see `C54_false_stale_delegate`. -/
theorem C54_deposit_partial (hi : env.PdaInjective) {P V : Key} {s0 s : Chain} {es : List Event} (hg : Genesis env s0)
    (hr : RunsWith env (Orderly env P V) s0 es s) (hn : s.now < 2 ^ 64) {accs : List AccountInfo}
    {aP M A D : AccountInfo} {rest : List AccountInfo} {p : Pool} {m : Mining} {d : Option Mining} {owner delegate : Key}
    (hP : aP.key = P) (hc : StakeReady env s.world accs aP M A D rest p m d owner delegate)
    (hV : env.findVault P p.rewardMint = some (V, p.bump)) (hB : balance s.world V < 2 ^ 64) {a k n : Nat}
    {per : LockupPeriod} (hper : terms per = some (k, n)) (hfit : p.totalShare + a * k + a < 2 ^ 64)
    (hdate : midnight s.now + 86400 * n < 2 ^ 64)
    (hd : ∀ x, d = some x → x.share + x.stakeFromOthers + a < 2 ^ 64 ∧
      10 ^ 16 * balance s.world V + a * (lastIndex 0 p.cumulative - x.index) ≤ 10 ^ 16 * (2 ^ 64 - 1)) :
    ∃ w', exec env s.now s.world accs (.depositMining a per owner delegate) = .ok (w', none) := by
  subst hP
  have hP0 := orderly_pool_ne_zero hg hr hc.pool
  obtain ⟨-, hw, -, hs⟩ := runs_solvent hi hP0 hg hr hn
  have ht := (hs.books p hc.pool hV).takes hw hc.pool hB hc.mining hc.delegates
  obtain ⟨m1, h1⟩ := refresh_succeeds ht.pool.history ht.mining ht.small ht.bound ht.owed
  obtain ⟨c1, -, -, -, c5, -⟩ := refresh_current ht.pool.history ht.mining.ok ht.mining.backed h1
  obtain ⟨⟨p', m', d'⟩, h⟩ := deposit_succeeds (caps := env.caps) hper h1 (ht.share_le c5) c1.backed ht.diffs_le hfit hdate
    fun x hx => ⟨by have := (hd x hx).1; omega, ht.raise (hd x hx).1 (hd x hx).2 hx⟩
  exact ⟨_, deposit_exec hw hc h⟩

/-- C54 for orderly histories: an extension of a flexible or expired stake made with the right accounts succeeds (once the
last distribution is visible), provided the stake recorded as delegated covers it and the amounts and dates fit into
64 bits. -/
theorem C54_extend_partial (hi : env.PdaInjective) {P V : Key} {s0 s : Chain} {es : List Event} (hg : Genesis env s0)
    (hr : RunsWith env (Orderly env P V) s0 es s) (hn : s.now < 2 ^ 64) {accs : List AccountInfo}
    {aP M A D : AccountInfo} {rest : List AccountInfo} {p : Pool} {m : Mining} {d : Option Mining} {owner delegate : Key}
    (hP : aP.key = P) (hc : StakeReady env s.world accs aP M A D rest p m d owner delegate)
    (hV : env.findVault P p.rewardMint = some (V, p.bump)) (hB : balance s.world V < 2 ^ 64) (hs : Settled p.cumulative s.now)
    {a b ts k n : Nat} {op np : LockupPeriod} (hb : Unlocked b m)
    (hx : op = .flex ∨ ∃ k n, terms op = some (k, n) ∧ midnight ts + 86400 * n ≤ s.now)
    (hnp : terms np = some (k, n)) (hfit : p.totalShare + (b + a) * k + (b + a) < 2 ^ 64)
    (hdate : midnight s.now + 86400 * n < 2 ^ 64)
    (hd : ∀ x, d = some x → b ≤ x.stakeFromOthers ∧ x.share + x.stakeFromOthers + a < 2 ^ 64) :
    ∃ w', exec env s.now s.world accs (.extendStake op np ts b a owner delegate) = .ok (w', none) := by
  subst hP
  have hP0 := orderly_pool_ne_zero hg hr hc.pool
  obtain ⟨-, hw, -, hso⟩ := runs_solvent hi hP0 hg hr hn
  have ht := (hso.books p hc.pool hV).takes hw hc.pool hB hc.mining hc.delegates
  obtain ⟨⟨p', m', d'⟩, h⟩ := extend_succeeds (caps := env.caps) ht hs hb hx hnp hfit hdate hd
  exact ⟨_, extend_exec hw hc h⟩

/-- C55 for orderly histories: a change of delegate made with the right accounts succeeds, provided the stake recorded as
delegated to the old delegate covers it and the amounts fit into 64 bits, where the stake is credited to the new delegate from
when they were last brought up to date.
Missing for the full property: histories that are not orderly; see `C54_false_locked_withdrawal`.  The condition on the new
delegate is needed; see `C54_false_stale_delegate`. -/
theorem C55_redelegate_partial (hi : env.PdaInjective) {P V : Key} {s0 s : Chain} {es : List Event} (hg : Genesis env s0)
    (hr : RunsWith env (Orderly env P V) s0 es s) (hn : s.now < 2 ^ 64) {accs : List AccountInfo}
    {aP M A O X Y : AccountInfo} {rest : List AccountInfo} {p : Pool} {m : Mining} {od nd : Option Mining} {delegate : Key}
    (hP : aP.key = P) (hc : RedelegateReady env s.world accs aP M A O X Y rest p m od nd delegate)
    (hV : env.findVault P p.rewardMint = some (V, p.bump)) (hB : balance s.world V < 2 ^ 64) {a : Nat}
    (ho : ∀ x, od = some x → a ≤ x.stakeFromOthers) (hfit : p.totalShare + a < 2 ^ 64)
    (hd : ∀ x, nd = some x → x.share + x.stakeFromOthers + a < 2 ^ 64 ∧
      10 ^ 16 * balance s.world V + a * (lastIndex 0 p.cumulative - x.index) ≤ 10 ^ 16 * (2 ^ 64 - 1)) :
    ∃ w', exec env s.now s.world accs (.changeDelegate a delegate) = .ok (w', none) := by
  subst hP
  have hP0 := orderly_pool_ne_zero hg hr hc.pool
  obtain ⟨-, hw, -, hs⟩ := runs_solvent hi hP0 hg hr hn
  have hb := hs.books p hc.pool hV
  have ht := hb.takes hw hc.pool hB hc.mining hc.old
  have hn := hb.takes hw hc.pool hB hc.mining hc.news
  obtain ⟨⟨p', m', nd', od'⟩, h⟩ := redelegate_succeeds ht ho hfit fun x hx => by
    obtain ⟨n1, -, n3⟩ := hn.delegate x hx
    exact ⟨n1, (hd x hx).1, (hd x hx).2, n3⟩
  exact redelegate_exec hw hc h

end

/-! ## Examples: the hypotheses are met -/

section Examples
open Demo

/-- The history of the examples, as for C26; another orderly history in which tokens are left to distribute. -/
example : Genesis Demo.env s0 ∧ RunsWith Demo.env (Orderly Demo.env 100 (vaultOf 100 101)) s0 orderlyStory afterOrderly ∧
    afterOrderly.now < 2 ^ 64 ∧ balance afterOrderly.world (vaultOf 100 101) < 2 ^ 64 :=
  ⟨s0_genesis, orderlyStory_runs, by decide +kernel, by decide +kernel⟩

def budgetLeft : List Event := story ++ [.tick DAY]

def afterBudget : Chain := (orderlyRun 100 (vaultOf 100 101) s0 budgetLeft).getD s0

theorem budgetLeft_runs : RunsWith Demo.env (Orderly Demo.env 100 (vaultOf 100 101)) s0 budgetLeft afterBudget :=
  orderlyRun_eq (by decide +kernel)

/-- A distribution of more than 1000 tokens meets the conditions of `C52_distribute_partial`. -/
example : totalIn Demo.env (filledBy Demo.env 100) s0 budgetLeft < 2 ^ 64 ∧ afterBudget.now < 2 ^ 64 ∧
    ∃ p m, DistributeReady Demo.env afterBudget.world [W 100, S 111] (W 100) (S 111) [] p ∧
      1000 < dailyAmount p.tokensAvailable p.distributionEndsAt afterBudget.now ∧
      Demo.env.findVault 100 p.rewardMint = some (vaultOf 100 101, p.bump) ∧
      Member Demo.env afterBudget.world 100 (mine 120 100) m ∧ 0 < earningOn m (midnight afterBudget.now) := by
  refine ⟨by decide +kernel, by decide +kernel, ?_⟩
  have h : hasPool afterBudget.world 100 (fun p => decide (p.distributeAuthority = 111 ∧
      1000 < dailyAmount p.tokensAvailable p.distributionEndsAt afterBudget.now ∧
      Demo.env.findVault 100 p.rewardMint = some (vaultOf 100 101, p.bump)) &&
      memberB afterBudget.world 100 (mine 120 100) fun m => decide (0 < earningOn m (midnight afterBudget.now))) = true := by
    decide +kernel
  obtain ⟨p, hp, h⟩ := hasPool_sound h
  simp only [Bool.and_eq_true, decide_eq_true_eq] at h
  obtain ⟨⟨h1, h2, h3⟩, h4⟩ := h
  obtain ⟨m, hm, h5⟩ := memberB_sound h4
  exact ⟨p, m, ⟨rfl, hp, ⟨h1.symm, rfl⟩, by decide⟩, h2, h3, hm, by simpa using h5⟩

/-- User 120 can withdraw 50 of the stake delegated to user 121, and extend it with 30 more (conditions of
`C53_withdraw_partial` and `C54_extend_partial`). -/
example : ∃ p m x, StakeReady Demo.env afterOrderly.world [W 100, W (mine 120 100), S 110, W (mine 121 100)] (W 100)
      (W (mine 120 100)) (S 110) (W (mine 121 100)) [] p m (some x) 120 121 ∧
    Demo.env.findVault 100 p.rewardMint = some (vaultOf 100 101, p.bump) ∧ Unlocked 50 m ∧ 50 ≤ x.stakeFromOthers ∧
    Settled p.cumulative afterOrderly.now ∧ p.totalShare + (50 + 30) * 6 + (50 + 30) < 2 ^ 64 ∧
    midnight afterOrderly.now + 86400 * 365 < 2 ^ 64 ∧ x.share + x.stakeFromOthers + 30 < 2 ^ 64 := by
  have h : hasPool afterOrderly.world 100 (fun p => decide (p.depositAuthority = 110 ∧
      Demo.env.findVault 100 p.rewardMint = some (vaultOf 100 101, p.bump) ∧ p.totalShare + (50 + 30) * 6 + (50 + 30) < 2 ^ 64 ∧
      midnight afterOrderly.now + 86400 * 365 < 2 ^ 64) && settledB p.cumulative afterOrderly.now &&
      memberB afterOrderly.world 100 (mine 120 100) (fun m => decide (m.owner = 120) && unlockedB 50 m) &&
      memberB afterOrderly.world 100 (mine 121 100) (fun x => decide (x.owner = 121 ∧ 50 ≤ x.stakeFromOthers ∧
        x.share + x.stakeFromOthers + 30 < 2 ^ 64))) = true := by decide +kernel
  obtain ⟨p, hp, h⟩ := hasPool_sound h
  simp only [Bool.and_eq_true, decide_eq_true_eq] at h
  obtain ⟨⟨⟨⟨h1, h2, h3, h4⟩, h5⟩, h6⟩, h7⟩ := h
  obtain ⟨m, hm, h8⟩ := memberB_sound h6
  obtain ⟨x, hx, h9⟩ := memberB_sound h7
  simp only [Bool.and_eq_true, decide_eq_true_eq] at h8 h9
  exact ⟨p, m, x, ⟨rfl, hp, hm, h8.1.symm, ⟨h1.symm, rfl⟩, Or.inr ⟨by decide, x, rfl, hx, h9.1.symm⟩, by decide⟩, h2,
    unlockedB_sound h8.2, h9.2.1, settledB_sound h5, h3, h4, h9.2.2⟩

/-- User 121 can deposit 77 for a year and delegate it to user 120, who is up to date (conditions of
`C54_deposit_partial`). -/
example : ∃ p m x, StakeReady Demo.env afterOrderly.world [W 100, W (mine 121 100), S 110, W (mine 120 100)] (W 100)
      (W (mine 121 100)) (S 110) (W (mine 120 100)) [] p m (some x) 121 120 ∧
    Demo.env.findVault 100 p.rewardMint = some (vaultOf 100 101, p.bump) ∧ p.totalShare + 77 * 6 + 77 < 2 ^ 64 ∧
    midnight afterOrderly.now + 86400 * 365 < 2 ^ 64 ∧ x.share + x.stakeFromOthers + 77 < 2 ^ 64 ∧
    10 ^ 16 * balance afterOrderly.world (vaultOf 100 101) + 77 * (lastIndex 0 p.cumulative - x.index) ≤ 10 ^ 16 * (2 ^ 64 - 1) ∧
    0 < x.index := by
  have h : hasPool afterOrderly.world 100 (fun p => decide (p.depositAuthority = 110 ∧
      Demo.env.findVault 100 p.rewardMint = some (vaultOf 100 101, p.bump) ∧ p.totalShare + 77 * 6 + 77 < 2 ^ 64 ∧
      midnight afterOrderly.now + 86400 * 365 < 2 ^ 64) &&
      memberB afterOrderly.world 100 (mine 121 100) (fun m => decide (m.owner = 121)) &&
      memberB afterOrderly.world 100 (mine 120 100) (fun x => decide (x.owner = 120 ∧
        x.share + x.stakeFromOthers + 77 < 2 ^ 64 ∧ 10 ^ 16 * balance afterOrderly.world (vaultOf 100 101) +
          77 * (lastIndex 0 p.cumulative - x.index) ≤ 10 ^ 16 * (2 ^ 64 - 1) ∧ 0 < x.index))) = true := by
    decide +kernel
  obtain ⟨p, hp, h⟩ := hasPool_sound h
  simp only [Bool.and_eq_true, decide_eq_true_eq] at h
  obtain ⟨⟨⟨h1, h2, h3, h4⟩, h6⟩, h7⟩ := h
  obtain ⟨m, hm, h8⟩ := memberB_sound h6
  obtain ⟨x, hx, h9⟩ := memberB_sound h7
  simp only [decide_eq_true_eq] at h8 h9
  exact ⟨p, m, x, ⟨rfl, hp, hm, h8.symm, ⟨h1.symm, rfl⟩, Or.inr ⟨by decide, x, rfl, hx, h9.1.symm⟩, by decide⟩, h2, h3, h4,
    h9.2⟩

/-- User 120 can take back 100 delegated to user 121; user 121 can delegate 300 to user 120, who is up to date
(conditions of `C55_redelegate_partial`). -/
example : ∃ p m x, RedelegateReady Demo.env afterOrderly.world
      [W 100, W (mine 120 100), S 110, S 120, W (mine 121 100), W (mine 120 100)] (W 100) (W (mine 120 100)) (S 110) (S 120)
      (W (mine 121 100)) (W (mine 120 100)) [] p m (some x) none 120 ∧
    RedelegateReady Demo.env afterOrderly.world
      [W 100, W (mine 121 100), S 110, S 121, W (mine 121 100), W (mine 120 100)] (W 100) (W (mine 121 100)) (S 110) (S 121)
      (W (mine 121 100)) (W (mine 120 100)) [] p x none (some m) 120 ∧
    Demo.env.findVault 100 p.rewardMint = some (vaultOf 100 101, p.bump) ∧ p.totalShare + 300 < 2 ^ 64 ∧
    100 ≤ x.stakeFromOthers ∧ m.share + m.stakeFromOthers + 300 < 2 ^ 64 ∧
    10 ^ 16 * balance afterOrderly.world (vaultOf 100 101) + 300 * (lastIndex 0 p.cumulative - m.index) ≤ 10 ^ 16 * (2 ^ 64 - 1) := by
  have h : hasPool afterOrderly.world 100 (fun p => decide (p.depositAuthority = 110 ∧
      Demo.env.findVault 100 p.rewardMint = some (vaultOf 100 101, p.bump) ∧ p.totalShare + 300 < 2 ^ 64) &&
      memberB afterOrderly.world 100 (mine 120 100) (fun m => decide (m.owner = 120 ∧
        m.share + m.stakeFromOthers + 300 < 2 ^ 64 ∧ 10 ^ 16 * balance afterOrderly.world (vaultOf 100 101) +
          300 * (lastIndex 0 p.cumulative - m.index) ≤ 10 ^ 16 * (2 ^ 64 - 1))) &&
      memberB afterOrderly.world 100 (mine 121 100) (fun x => decide (x.owner = 121 ∧ 100 ≤ x.stakeFromOthers))) = true := by
    decide +kernel
  obtain ⟨p, hp, h⟩ := hasPool_sound h
  simp only [Bool.and_eq_true, decide_eq_true_eq] at h
  obtain ⟨⟨⟨h1, h2, h3⟩, h6⟩, h7⟩ := h
  obtain ⟨m, hm, h8⟩ := memberB_sound h6
  obtain ⟨x, hx, h9⟩ := memberB_sound h7
  simp only [decide_eq_true_eq] at h8 h9
  exact ⟨p, m, x, ⟨rfl, hp, hm, ⟨h8.1.symm, rfl⟩, ⟨h1.symm, rfl⟩, by decide, Or.inr ⟨by decide, x, rfl, hx⟩,
    Or.inl ⟨rfl, rfl⟩, by decide⟩, ⟨rfl, hp, hx, ⟨h9.1.symm, rfl⟩, ⟨h1.symm, rfl⟩, by decide, Or.inl ⟨rfl, rfl⟩,
    Or.inr ⟨by decide, m, rfl, hm, h8.1.symm⟩, by decide⟩, h2, h3, h9.2, h8.2⟩

end Examples

/-! ## Counterexamples -/

section Counterexamples
open Demo

/-- A lock of three months is extended to one year before it expires; the pool does not cancel the old expiration. -/
def earlyYear : List Event :=
  [initPool 100, initMining 100 120, deposit 100 120 1000 .threeMonths 120,
    extend 100 120 .threeMonths .oneYear (day0 + 100) 1000 0 120, fill 100 10000 (day0 + 500 * DAY), .tick (366 * DAY)]

/-- C52 and C53 fail without conditions: once the extended lock has expired, the only staker's 1000 tokens are still
staked and unlocked, and yet nothing can be distributed and nothing can be withdrawn. -/
theorem C52_false_early_extension : ∃ s, RunsWith Demo.env (CleanEvent Demo.env) s0 earlyYear s ∧
    worldAfter s (distribute 100) = none ∧ worldAfter s (withdraw 100 120 1000 120) = none ∧
    ∃ p m, DistributeReady Demo.env s.world [W 100, S 111] (W 100) (S 111) [] p ∧
      StakeReady Demo.env s.world [W 100, W (mine 120 100), S 110, W (mine 120 100)] (W 100) (W (mine 120 100)) (S 110)
        (W (mine 120 100)) [] p m none 120 120 ∧ earningOn m (midnight s.now) = 1000 ∧
      ∃ m', m.refreshRewards s.now p.cumulative = .ok m' ∧ Unlocked 1000 m' := by
  refine reaches (fun s => worldAfter s (distribute 100) = none ∧ worldAfter s (withdraw 100 120 1000 120) = none ∧
    ∃ p m, DistributeReady Demo.env s.world [W 100, S 111] (W 100) (S 111) [] p ∧
      StakeReady Demo.env s.world [W 100, W (mine 120 100), S 110, W (mine 120 100)] (W 100) (W (mine 120 100)) (S 110)
        (W (mine 120 100)) [] p m none 120 120 ∧ earningOn m (midnight s.now) = 1000 ∧
      ∃ m', m.refreshRewards s.now p.cumulative = .ok m' ∧ Unlocked 1000 m')
    (by decide +kernel) ⟨by decide +kernel, by decide +kernel, ?_⟩
  have h : hasPool ((run s0 earlyYear).getD s0).world 100 (fun p => decide (p.depositAuthority = 110 ∧
      p.distributeAuthority = 111) && memberB ((run s0 earlyYear).getD s0).world 100 (mine 120 100) (fun m =>
        decide (m.owner = 120 ∧ earningOn m (midnight ((run s0 earlyYear).getD s0).now) = 1000) &&
        (match m.refreshRewards ((run s0 earlyYear).getD s0).now p.cumulative with
          | .ok m' => unlockedB 1000 m'
          | .error _ => false))) = true := by decide +kernel
  obtain ⟨p, hp, h⟩ := hasPool_sound h
  simp only [Bool.and_eq_true, decide_eq_true_eq] at h
  obtain ⟨⟨h1, h2⟩, h3⟩ := h
  obtain ⟨m, hm, h4⟩ := memberB_sound h3
  simp only [Bool.and_eq_true, decide_eq_true_eq] at h4
  obtain ⟨⟨h4, h5⟩, h6⟩ := h4
  refine ⟨p, m, ⟨rfl, hp, ⟨h2.symm, rfl⟩, by decide⟩, ⟨rfl, hp, hm, h4.symm, ⟨h1.symm, rfl⟩, Or.inl ⟨rfl, rfl⟩, by decide⟩,
    h5, ?_⟩
  split at h6
  · rename_i m' e; exact ⟨m', e, unlockedB_sound h6⟩
  · cases h6

/-- C54 and C55 fail without conditions: after a withdrawal of locked stake the mining can, from the expiry date on, no
longer be used; neither a deposit nor a change of delegate succeeds. -/
theorem C54_false_locked_withdrawal :
    ∃ s, RunsWith Demo.env (CleanEvent Demo.env) s0 (lockedWithdrawal ++ [initMining 100 121, .tick (366 * DAY)]) s ∧
      worldAfter s (deposit 100 120 10 .flex 120) = none ∧ worldAfter s (redelegate 100 120 10 120 121) = none ∧
      ∃ p m x, StakeReady Demo.env s.world [W 100, W (mine 120 100), S 110, W (mine 120 100)] (W 100) (W (mine 120 100))
          (S 110) (W (mine 120 100)) [] p m none 120 120 ∧
        RedelegateReady Demo.env s.world [W 100, W (mine 120 100), S 110, S 120, W (mine 120 100), W (mine 121 100)] (W 100)
          (W (mine 120 100)) (S 110) (S 120) (W (mine 120 100)) (W (mine 121 100)) [] p m none (some x) 121 ∧
        x.index = lastIndex 0 p.cumulative ∧ p.totalShare < 10000 := by
  refine reaches (fun s => worldAfter s (deposit 100 120 10 .flex 120) = none ∧
      worldAfter s (redelegate 100 120 10 120 121) = none ∧
      ∃ p m x, StakeReady Demo.env s.world [W 100, W (mine 120 100), S 110, W (mine 120 100)] (W 100) (W (mine 120 100))
          (S 110) (W (mine 120 100)) [] p m none 120 120 ∧
        RedelegateReady Demo.env s.world [W 100, W (mine 120 100), S 110, S 120, W (mine 120 100), W (mine 121 100)] (W 100)
          (W (mine 120 100)) (S 110) (S 120) (W (mine 120 100)) (W (mine 121 100)) [] p m none (some x) 121 ∧
        x.index = lastIndex 0 p.cumulative ∧ p.totalShare < 10000)
    (by decide +kernel) ⟨by decide +kernel, by decide +kernel, ?_⟩
  have h : hasPool ((run s0 (lockedWithdrawal ++ [initMining 100 121, .tick (366 * DAY)])).getD s0).world 100 (fun p =>
      decide (p.depositAuthority = 110 ∧ p.totalShare < 10000) &&
      memberB ((run s0 (lockedWithdrawal ++ [initMining 100 121, .tick (366 * DAY)])).getD s0).world 100 (mine 120 100)
        (fun m => decide (m.owner = 120)) &&
      memberB ((run s0 (lockedWithdrawal ++ [initMining 100 121, .tick (366 * DAY)])).getD s0).world 100 (mine 121 100)
        (fun x => decide (x.owner = 121 ∧ x.index = lastIndex 0 p.cumulative))) = true := by decide +kernel
  obtain ⟨p, hp, h⟩ := hasPool_sound h
  simp only [Bool.and_eq_true, decide_eq_true_eq] at h
  obtain ⟨⟨⟨h1, h2⟩, h3⟩, h4⟩ := h
  obtain ⟨m, hm, h5⟩ := memberB_sound h3
  obtain ⟨x, hx, h6⟩ := memberB_sound h4
  simp only [decide_eq_true_eq] at h5 h6
  exact ⟨p, m, x, ⟨rfl, hp, hm, h5.symm, ⟨h1.symm, rfl⟩, Or.inl ⟨rfl, rfl⟩, by decide⟩,
    ⟨rfl, hp, hm, ⟨h5.symm, rfl⟩, ⟨h1.symm, rfl⟩, by decide, Or.inl ⟨rfl, rfl⟩,
      Or.inr ⟨by decide, x, rfl, hx, h6.1.symm⟩, by decide⟩, h6.2, h2⟩

/-- User 121 has a mining but no stake, and is not brought up to date after the distribution; user 120 stakes 2^40 tokens. -/
def rapidIndex : List Event :=
  [initPool 100, initMining 100 120, initMining 100 121, deposit 100 120 1 .flex 120, fill 100 1000000000 (day0 + DAY),
    distribute 100, .tick DAY, deposit 100 120 (2 ^ 40) .flex 120]

def afterRapid : Chain := (orderlyRun 100 (vaultOf 100 101) s0 rapidIndex).getD s0

/-- The condition on the delegate in C54 and C55 is needed even after orderly histories: user 120 can neither deposit 2^40 tokens
and delegate them to user 121, nor delegate those they have, because user 121 would at once be credited with more than 2^64. -/
theorem C54_false_stale_delegate :
    RunsWith Demo.env (Orderly Demo.env 100 (vaultOf 100 101)) s0 rapidIndex afterRapid ∧
      worldAfter afterRapid (deposit 100 120 (2 ^ 40) .flex 121) = none ∧
      worldAfter afterRapid (redelegate 100 120 (2 ^ 40) 120 121) = none ∧
      ∃ p m x, StakeReady Demo.env afterRapid.world [W 100, W (mine 120 100), S 110, W (mine 121 100)] (W 100)
          (W (mine 120 100)) (S 110) (W (mine 121 100)) [] p m (some x) 120 121 ∧
        RedelegateReady Demo.env afterRapid.world [W 100, W (mine 120 100), S 110, S 120, W (mine 120 100), W (mine 121 100)]
          (W 100) (W (mine 120 100)) (S 110) (S 120) (W (mine 120 100)) (W (mine 121 100)) [] p m none (some x) 121 ∧
        2 ^ 40 ≤ m.share ∧ x.share + x.stakeFromOthers = 0 ∧ p.totalShare + 2 ^ 40 * 1 + 2 ^ 40 < 2 ^ 64 := by
  refine ⟨orderlyRun_eq (by decide +kernel), by decide +kernel, by decide +kernel, ?_⟩
  have h : hasPool afterRapid.world 100 (fun p =>
      decide (p.depositAuthority = 110 ∧ p.totalShare + 2 ^ 40 * 1 + 2 ^ 40 < 2 ^ 64) &&
      memberB afterRapid.world 100 (mine 120 100) (fun m => decide (m.owner = 120 ∧ 2 ^ 40 ≤ m.share)) &&
      memberB afterRapid.world 100 (mine 121 100)
        (fun x => decide (x.owner = 121 ∧ x.share + x.stakeFromOthers = 0))) = true := by decide +kernel
  obtain ⟨p, hp, h⟩ := hasPool_sound h
  simp only [Bool.and_eq_true, decide_eq_true_eq] at h
  obtain ⟨⟨⟨h1, h2⟩, h3⟩, h4⟩ := h
  obtain ⟨m, hm, h5⟩ := memberB_sound h3
  obtain ⟨x, hx, h6⟩ := memberB_sound h4
  simp only [decide_eq_true_eq] at h5 h6
  exact ⟨p, m, x, ⟨rfl, hp, hm, h5.1.symm, ⟨h1.symm, rfl⟩, Or.inr ⟨by decide, x, rfl, hx, h6.1.symm⟩, by decide⟩,
    ⟨rfl, hp, hm, ⟨h5.1.symm, rfl⟩, ⟨h1.symm, rfl⟩, by decide, Or.inl ⟨rfl, rfl⟩,
      Or.inr ⟨by decide, x, rfl, hx, h6.1.symm⟩, by decide⟩, h5.2, h6.2, h2⟩

end Counterexamples

end Verif
