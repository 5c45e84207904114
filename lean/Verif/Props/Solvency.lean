import Verif.Lemmas.ClaimOk
import Verif.Lemmas.Backed
import Verif.Lemmas.DemoOrderly
import Verif.Props.Expirations
/-!
Properties about a pool's books: C09 (solvency), C10 (total stake), C25 (expirations never exceed the stake), C26 (a claim
cannot be blocked).

C09, C10 and C26 are false without conditions on how the pool is run; the conditions are `Spec.Orderly`, the
counterexamples below show what goes wrong without them.
-/

namespace Verif

open Spec

section
variable {env : Env}

/-- C09 for orderly histories: after every history of orderly events, the vault holds at least the tokens not yet
distributed and everything owed to all minings of the pool together (whatever list of accounts is summed over).
Missing for the full property: histories that are not orderly; see `C09_false_*`. -/
theorem C09_solvency_partial (hi : env.PdaInjective) {P V : Key} {s0 s : Chain} {es : List Event} (hg : Genesis env s0)
    (hr : RunsWith env (Orderly env P V) s0 es s) (hn : s.now < 2 ^ 64) {p : Pool} (hp : PoolAt env s.world P p)
    (hV : env.findVault P p.rewardMint = some (V, p.bump)) {ks : List Key} (hk : ks.Nodup) :
    10 ^ 16 * p.tokensAvailable + owedTotal env s.world P p.cumulative ks ≤ 10 ^ 16 * balance s.world V := by
  have hP0 : P ≠ 0 := orderly_pool_ne_zero hg hr hp
  have h := ((runs_solvent hi hP0 hg hr hn).2.2.2.books p hp hV).funds ks hk
  unfold owedTotal
  omega

/-- C10 for orderly histories: on every day from today on, the pool's total stake covers the stake all its minings earn
with.  Missing for the full property: histories that are not orderly; see `C10_false_*`. -/
theorem C10_total_stake_partial (hi : env.PdaInjective) {P V : Key} {s0 s : Chain} {es : List Event} (hg : Genesis env s0)
    (hr : RunsWith env (Orderly env P V) s0 es s) (hn : s.now < 2 ^ 64) {p : Pool} (hp : PoolAt env s.world P p)
    (hV : env.findVault P p.rewardMint = some (V, p.bump)) {ks : List Key} (hk : ks.Nodup) {d : Nat}
    (hd : midnight s.now ≤ d) : earningTotal env s.world P d ks ≤ totalOn p d := by
  have hP0 : P ≠ 0 := orderly_pool_ne_zero hg hr hp
  have h := ((runs_solvent hi hP0 hg hr hn).2.2.2.books p hp hV).cover d hd ks hk
  unfold earningTotal
  omega

/-- C25: after every history in which withdrawals, slashes and extensions take only unlocked stake (and in which no pool
account is passed as a mining), the expirations recorded in any mining add up to at most its stake. -/
theorem C25_backed {s0 s : Chain} {es : List Event} (hg : Genesis env s0) (hr : RunsWith env (LeavesLocked env) s0 es s)
    {k : Key} {m : Mining} (hm : MiningAt env s.world k m) : total m.diffs ≤ m.share := by
  refine (runs_backed hr ⟨s0, [], hg, .nil _⟩ ?_).2 k m hm
  intro k m hm
  have := (hg.owned k hm.1).1; rw [hm.2] at this; cases this

/-- C26 for orderly histories: whenever a mining of the pool is brought up to date, this succeeds, provided the vault's
balance fits into 64 bits.  Missing for the full property: histories that are not orderly; see `C26_false_*`. -/
theorem C26_refresh_partial (hi : env.PdaInjective) {P V : Key} {s0 s : Chain} {es : List Event} (hg : Genesis env s0)
    (hr : RunsWith env (Orderly env P V) s0 es s) (hn : s.now < 2 ^ 64) {p : Pool} (hp : PoolAt env s.world P p)
    (hV : env.findVault P p.rewardMint = some (V, p.bump)) {k : Key} {m : Mining} (hm : Member env s.world P k m)
    (hB : balance s.world V < 2 ^ 64) : ∃ m', m.refreshRewards s.now p.cumulative = .ok m' := by
  have hP0 : P ≠ 0 := orderly_pool_ne_zero hg hr hp
  obtain ⟨-, hw, -, hs⟩ := runs_solvent hi hP0 hg hr hn
  have hb := hs.books p hp hV
  have h := hb.funds [k] (by simp)
  rw [sumOver_cons, show sumOver _ ([] : List Key) = 0 from rfl, ofMember_eq hm] at h
  exact refresh_succeeds (poolAt_good hw hp).ok.history (hb.sound k m hm) (hb.small k m hm) hB (by omega)

/-- C26 for orderly histories: a claim made with the right accounts succeeds and returns at most what the vault holds
besides the tokens not yet distributed (the exact amount is given by C01). -/
theorem C26_claim_partial (hi : env.PdaInjective) {P V : Key} {s0 s : Chain} {es : List Event} (hg : Genesis env s0)
    (hr : RunsWith env (Orderly env P V) s0 es s) (hn : s.now < 2 ^ 64) {accs : List AccountInfo}
    {aP T aV M O A U K : AccountInfo} {rest : List AccountInfo} {p : Pool} {m : Mining} {t u : TokenAcc}
    (hP : aP.key = P) (hV : aV.key = V) (hc : ClaimReady env s.world accs aP T aV M O A U K rest p m t u) :
    ∃ w' n, exec env s.now s.world accs .claim = .ok (w', some n) ∧ n + p.tokensAvailable ≤ balance s.world V := by
  subst hP hV
  have hV := hc.vault.1
  rw [hc.mint.1] at hV
  have hbal : balance s.world aV.key = t.amount := by unfold balance; rw [hc.vault.2.2]
  have hB : balance s.world aV.key < 2 ^ 64 := by have := hc.usable.2.2.2.2.2.2.1; omega
  have hP0 : aP.key ≠ 0 := orderly_pool_ne_zero hg hr hc.pool
  obtain ⟨-, hw, -, hs⟩ := runs_solvent hi hP0 hg hr hn
  have hb := hs.books p hc.pool hV
  obtain ⟨m1, hm1⟩ := C26_refresh_partial hi hg hr hn hc.pool hV hc.mining hB
  have h := hb.funds [M.key] (by simp)
  rw [sumOver_cons, show sumOver _ ([] : List Key) = 0 from rfl, ofMember_eq hc.mining] at h
  have hsd := hb.sound _ _ hc.mining
  obtain ⟨c, rfl, -, -, -, -, g1, -⟩ := refresh_ok (poolAt_good hw hc.pool).ok.history hsd.ok.sorted hm1
  have hent : entitlement m p.cumulative s.now ≤ pending m p.cumulative := by
    rw [pending_split (poolAt_good hw hc.pool).ok.history m hsd.index]; exact Nat.le_add_right _ _
  have hle : m.unclaimed + c + p.tokensAvailable ≤ balance s.world aV.key := by
    unfold owed at h
    unfold PRECISION at g1
    omega
  obtain ⟨w', hx⟩ := claim_succeeds hw hc hm1 (by show m.unclaimed + c ≤ _; omega)
  exact ⟨w', _, hx, hle⟩

end

/-! ## Examples: the hypotheses are met by a history with every kind of operation -/

section Examples
open Demo

example : Genesis Demo.env s0 ∧ RunsWith Demo.env (Orderly Demo.env 100 (vaultOf 100 101)) s0 orderlyStory afterOrderly ∧
    afterOrderly.now < 2 ^ 64 := ⟨s0_genesis, orderlyStory_runs, by decide +kernel⟩

/-- In that state both minings have stake, one has unclaimed rewards, and the vault holds tokens. -/
example : hasPool afterOrderly.world 100 (fun p => decide (Demo.env.findVault 100 p.rewardMint =
      some (vaultOf 100 101, p.bump) ∧ 2603 = balance afterOrderly.world (vaultOf 100 101) ∧
      10 ^ 16 * 1296 ≤ owedTotal Demo.env afterOrderly.world 100 p.cumulative [mine 120 100, mine 121 100] ∧
      4783 ≤ earningTotal Demo.env afterOrderly.world 100 (midnight afterOrderly.now) [mine 120 100, mine 121 100])) = true := by
  decide +kernel

/-- A claim of user 121 in that state meets the conditions of `C26_claim_partial`. -/
example : ∃ p m t u, ClaimReady Demo.env afterOrderly.world
    [R 100, R 101, W (vaultOf 100 101), W (mine 121 100), S 121, S 110, W 131, R 2] (R 100) (R 101) (W (vaultOf 100 101))
    (W (mine 121 100)) (S 121) (S 110) (W 131) (R 2) [] p m t u := by
  have h : hasPool afterOrderly.world 100 (fun p => hasMining afterOrderly.world (mine 121 100) (fun m =>
      hasToken afterOrderly.world (vaultOf 100 101) (fun t => hasToken afterOrderly.world 131 (fun u =>
        decide (p.rewardMint = 101 ∧ Demo.env.findVault 100 101 = some (vaultOf 100 101, p.bump) ∧ m.rewardPool = 100 ∧
          m.owner = 121 ∧ p.depositAuthority = 110 ∧ u.owner = 121 ∧ t.frozen = false ∧ u.frozen = false ∧
          t.native = false ∧ t.mint = u.mint ∧ t.owner = 110 ∧ t.delegate ≠ some 110 ∧ t.amount + u.amount < 2 ^ 64 ∧
          (afterOrderly.world 131).lamports < 2 ^ 64 ∧ (afterOrderly.world 101).owner = Demo.env.tokenProgram ∧
            (afterOrderly.world 110).owner ≠ Demo.env.tokenProgram))))) = true := by
    decide +kernel
  obtain ⟨p, hp, h⟩ := hasPool_sound h
  obtain ⟨m, hm, h⟩ := hasMining_sound h
  obtain ⟨t, ht, h⟩ := hasToken_sound h
  obtain ⟨u, hu, h⟩ := hasToken_sound h
  simp only [decide_eq_true_eq] at h
  obtain ⟨a1, a2, a3, a4, a5, a6, a7, a8, a9, a10, a11, a12, a13, a14, a15, a16⟩ := h
  exact ⟨p, m, t, u, rfl, hp, ⟨a1.symm, a15⟩, ⟨a2, ht⟩, ⟨hm, a3⟩, ⟨a4.symm, rfl⟩, ⟨a5.symm, rfl⟩,
    fun h => a16 h.1, ⟨hu, a6⟩, rfl,
    ⟨a7, a8, a9, a10, a11, a12, a13, a14⟩, by decide⟩

/-- The hypotheses of `C25_backed` are met, also where the histories are not orderly. -/
example : ∃ s, RunsWith Demo.env (LeavesLocked Demo.env) s0 (orderlyStory ++ [deposit 100 120 5000 .threeMonths 121,
    extend 100 120 .threeMonths .oneYear (day0 + 8 * DAY) 5000 100 121, withdraw 100 120 1000 121,
    slash 100 120 10 50 (some (day0 + 8 * DAY + 365 * DAY))]) s :=
  leavesLockedRun_sound (by decide +kernel)

end Examples

/-! ## Counterexamples -/

section Counterexamples
open Demo

/-- The vault of pool 100 holds less than what is not yet distributed and owed to the minings. -/
def Insolvent (s : Chain) : Prop :=
  ∃ p, PoolAt Demo.env s.world 100 p ∧ Demo.env.findVault 100 p.rewardMint = some (vaultOf 100 101, p.bump) ∧
    ∃ ks : List Key, ks.Nodup ∧ 10 ^ 16 * balance s.world (vaultOf 100 101) <
      10 ^ 16 * p.tokensAvailable + owedTotal Demo.env s.world 100 p.cumulative ks

/-- The minings of pool 100 earn with more stake than the pool counts on the day `d`. -/
def Overcommitted (s : Chain) (d : Nat) : Prop :=
  midnight s.now ≤ d ∧ ∃ p, PoolAt Demo.env s.world 100 p ∧
    ∃ ks : List Key, ks.Nodup ∧ totalOn p d < earningTotal Demo.env s.world 100 d ks

def users : List Key := [mine 120 100, mine 121 100]

def insolventB (s : Chain) : Bool :=
  hasPool s.world 100 fun p => decide (Demo.env.findVault 100 p.rewardMint = some (vaultOf 100 101, p.bump) ∧
    10 ^ 16 * balance s.world (vaultOf 100 101) < 10 ^ 16 * p.tokensAvailable + owedTotal Demo.env s.world 100 p.cumulative users)

def overcommittedB (s : Chain) (d : Nat) : Bool :=
  hasPool s.world 100 fun p => decide (midnight s.now ≤ d ∧ totalOn p d < earningTotal Demo.env s.world 100 d users)

theorem insolventB_sound {s : Chain} (h : insolventB s = true) : Insolvent s := by
  obtain ⟨p, hp, h⟩ := hasPool_sound h
  simp only [decide_eq_true_eq] at h
  exact ⟨p, hp, h.1, users, by decide, h.2⟩

theorem overcommittedB_sound {s : Chain} {d : Nat} (h : overcommittedB s d = true) : Overcommitted s d := by
  obtain ⟨p, hp, h⟩ := hasPool_sound h
  simp only [decide_eq_true_eq] at h
  exact ⟨h.1, p, hp, users, by decide, h.2⟩

theorem reaches {es : List Event} (P : Chain → Prop) (h : (run s0 es).isSome = true) (hP : P ((run s0 es).getD s0)) :
    ∃ s, RunsWith Demo.env (CleanEvent Demo.env) s0 es s ∧ P s :=
  ⟨_, run_sound (run_eq h), hP⟩

/-- Stake 1000 by user 121, and a first distribution of 1111 tokens. -/
def distributed : List Event :=
  [initPool 100, initMining 100 120, initMining 100 121, deposit 100 121 1000 .flex 121,
    fill 100 10000 (day0 + 10 * DAY), distribute 100, .tick DAY]

/-- C09 fails if stake is delegated to a mining that is not up to date: the delegate is credited for past distributions
with the new stake. -/
def staleDelegate : List Event := distributed ++ [deposit 100 120 5000 .flex 121]

theorem C09_false_stale_delegate : ∃ s, RunsWith Demo.env (CleanEvent Demo.env) s0 staleDelegate s ∧ Insolvent s :=
  reaches _ (by decide +kernel) (insolventB_sound (by decide +kernel))

/-- The claim of a mining then fails for lack of funds (C26 fails): with 50000 delegated, 121 is credited more than the
vault holds. -/
def staleDelegate2 : List Event := distributed ++ [deposit 100 120 50000 .flex 121]

theorem C26_false_stale_delegate : ∃ s, RunsWith Demo.env (CleanEvent Demo.env) s0 staleDelegate2 s ∧
    worldAfter s (claim 100 121 131) = none :=
  reaches _ (by decide +kernel) (by decide +kernel)

/-- The same happens when only the delegate is changed. -/
def staleRedelegation : List Event :=
  [initPool 100, initMining 100 120, initMining 100 121, deposit 100 121 1000 .flex 121, deposit 100 120 5000 .flex 120,
    fill 100 10000 (day0 + 10 * DAY), distribute 100, .tick DAY, redelegate 100 120 5000 120 121]

theorem C09_false_stale_redelegation : ∃ s, RunsWith Demo.env (CleanEvent Demo.env) s0 staleRedelegation s ∧ Insolvent s :=
  reaches _ (by decide +kernel) (insolventB_sound (by decide +kernel))

/-- C09 fails if stake is added in the very second of midnight after that day's distribution: the distribution becomes
visible one second later and is then credited to the new stake as well. -/
def midnightDeposit : List Event :=
  [.tick (DAY - 100), initPool 100, initMining 100 120, initMining 100 121, deposit 100 121 1000 .flex 121,
    fill 100 10000 (day0 + 10 * DAY), distribute 100, deposit 100 120 5000 .flex 120]

theorem C09_false_midnight : ∃ s, RunsWith Demo.env (CleanEvent Demo.env) s0 midnightDeposit s ∧ Insolvent s :=
  reaches _ (by decide +kernel) (insolventB_sound (by decide +kernel))

/-- C09 and C10 fail if a stake is extended before it expires: the pool does not cancel the old expiration. -/
def earlyExtension : List Event :=
  [initPool 100, initMining 100 120, initMining 100 121, deposit 100 121 1000 .oneYear 121,
    deposit 100 120 1000 .threeMonths 120, extend 100 120 .threeMonths .sixMonths (day0 + 100) 1000 0 120,
    fill 100 10000 (day0 + 100 * DAY)]

theorem C10_false_early_extension : ∃ s, RunsWith Demo.env (CleanEvent Demo.env) s0 earlyExtension s ∧
    Overcommitted s (day0 + 90 * 86400) :=
  reaches _ (by decide +kernel) (overcommittedB_sound (by decide +kernel))

theorem C09_false_early_extension :
    ∃ s, RunsWith Demo.env (CleanEvent Demo.env) s0 (earlyExtension ++ [.tick (91 * DAY), distribute 100, .tick 5]) s ∧
      Insolvent s :=
  reaches _ (by decide +kernel) (insolventB_sound (by decide +kernel))

/-- C10 fails if the mining's table of expirations is full: the stake then never expires for the mining, although it does
for the pool. -/
def fullTable : List Event := manyDeposits ++ [deposit 100 120 10 .oneYear 120]

theorem C10_false_full_table : ∃ s, RunsWith Demo.env (CleanEvent Demo.env) s0 fullTable s ∧
    Overcommitted s (day0 + 500 * 86400) :=
  reaches _ (by decide +kernel) (overcommittedB_sound (by decide +kernel))

/-- C09 fails if the vault is filled from itself: possible if the deposit authority, who owns the vault, also is the fill
authority. -/
def selfFill : List Event :=
  [initPoolBy 100 112, fill 100 10000 (day0 + 10 * DAY),
    .ix [W 100, R 101, W (vaultOf 100 101), S 112, W (vaultOf 100 101), R 2] (.fillVault 10000 (day0 + 10 * DAY))]

theorem C09_false_self_fill : ∃ s, RunsWith Demo.env (CleanEvent Demo.env) s0 selfFill s ∧ Insolvent s :=
  reaches _ (by decide +kernel) (insolventB_sound (by decide +kernel))

/-- C09 fails because of ChangeDelegate of another pool: it accepts any mining as old delegate and credits it with the
other pool's distributions.  Here pool 200 distributes 11111 tokens to a stake of 1, and the mining of user 121 in pool 100
with a stake of 1000 is credited for them. -/
def otherPool : List Event :=
  [initPool 100, initMining 100 121, deposit 100 121 1000 .flex 121,
    initPool 200, initMining 200 120, deposit 200 120 1 .flex 120, fill 200 100000 (day0 + 10 * DAY), distribute 200, .tick DAY,
    .ix [W 200, W (mine 120 200), S 110, S 120, W (mine 121 100), W (mine 120 200)] (.changeDelegate 0 120)]

theorem C09_false_other_pool : ∃ s, RunsWith Demo.env (CleanEvent Demo.env) s0 otherPool s ∧ Insolvent s :=
  reaches _ (by decide +kernel) (insolventB_sound (by decide +kernel))

/-- C25 and C26 fail if locked stake is withdrawn: of a flexible stake of 10 and a locked one, 1000 (with multiplier 6),
more than the unlocked 1010 are withdrawn; at the expiry date the mining can no longer be brought up to date. -/
def lockedWithdrawal : List Event :=
  [initPool 100, initMining 100 120, deposit 100 120 10 .flex 120, deposit 100 120 1000 .oneYear 120,
    withdraw 100 120 1011 120]

theorem C25_false_locked_withdrawal : ∃ s, RunsWith Demo.env (CleanEvent Demo.env) s0 lockedWithdrawal s ∧
    ∃ m, MiningAt Demo.env s.world (mine 120 100) m ∧ m.share < total m.diffs := by
  refine reaches (fun s => ∃ m, MiningAt Demo.env s.world (mine 120 100) m ∧ m.share < total m.diffs)
    (by decide +kernel) ?_
  obtain ⟨m, hm, h⟩ := hasMining_sound (f := fun m => decide (m.share < total m.diffs))
    (show hasMining ((run s0 lockedWithdrawal).getD s0).world (mine 120 100) _ = true by decide +kernel)
  exact ⟨m, hm, by simpa using h⟩

theorem C26_false_locked_withdrawal :
    ∃ s, RunsWith Demo.env (CleanEvent Demo.env) s0 (lockedWithdrawal ++ [.tick (366 * DAY)]) s ∧
      worldAfter s (claim 100 120 130) = none ∧
      ∃ m p, MiningAt Demo.env s.world (mine 120 100) m ∧ PoolAt Demo.env s.world 100 p ∧
        ∀ m', m.refreshRewards s.now p.cumulative ≠ .ok m' := by
  refine reaches (fun s => worldAfter s (claim 100 120 130) = none ∧ ∃ m p, MiningAt Demo.env s.world (mine 120 100) m ∧
    PoolAt Demo.env s.world 100 p ∧ ∀ m', m.refreshRewards s.now p.cumulative ≠ .ok m')
    (by decide +kernel) ⟨by decide +kernel, ?_⟩
  obtain ⟨m, hm, h⟩ := hasMining_sound (f := fun m => hasPool
      ((run s0 (lockedWithdrawal ++ [.tick (366 * DAY)])).getD s0).world 100 fun p =>
      match m.refreshRewards ((run s0 (lockedWithdrawal ++ [.tick (366 * DAY)])).getD s0).now p.cumulative with
      | .ok _ => false
      | .error _ => true)
    (show hasMining ((run s0 (lockedWithdrawal ++ [.tick (366 * DAY)])).getD s0).world (mine 120 100) _ = true by
      decide +kernel)
  obtain ⟨p, hp, h⟩ := hasPool_sound h
  refine ⟨m, p, hm, hp, fun m' hm' => ?_⟩
  rw [hm'] at h
  cases h

/-- C09 fails if the owner of the vault, the deposit authority, takes tokens out of it outside the program. -/
theorem C09_false_outside : ∃ s w', RunsWith Demo.env (CleanEvent Demo.env) s0 (distributed ++ [.ext w']) s ∧
    Insolvent s := by
  let s := (run s0 distributed).getD s0
  let w' := s.world.set (vaultOf 100 101) (tok 110 0)
  have hr : RunsWith Demo.env (CleanEvent Demo.env) s0 distributed s := run_sound (run_eq (by decide +kernel))
  have ho : (s.world (vaultOf 100 101)).owner = 2 := by decide +kernel
  have hv : (Event.ext w').Valid Demo.env s := by
    have hne : ∀ k, k ≠ vaultOf 100 101 → w' k = s.world k := fun k hk => world_set_ne _ _ hk
    have heq : w' (vaultOf 100 101) = tok 110 0 := world_set_same _ _ _
    refine ⟨fun k hk => ?_, fun k hk hk' => ?_, fun k _ hk => ?_, fun k _ hk => ?_⟩ <;>
      by_cases e : k = vaultOf 100 101
    · subst e; rw [ho] at hk; cases hk
    · rw [hne k e]; exact ⟨rfl, rfl, rfl, Nat.le_refl _⟩
    · subst e; rw [heq] at hk'; cases hk'
    · rw [hne k e] at hk'; exact absurd hk' hk
    · subst e; rw [ho] at hk; cases hk
    · rw [hne k e]; exact ⟨hk, rfl, rfl⟩
    · subst e; rw [heq]; exact Or.inl rfl
    · rw [hne k e]; exact Or.inl hk
  refine ⟨s.apply Demo.env (.ext w'), w', hr.append (.cons hv trivial (.nil _)), insolventB_sound ?_⟩
  decide +kernel

end Counterexamples

end Verif
