import Verif.Lemmas.Ledger
import Verif.Lemmas.DemoLedger
import Verif.Lemmas.DemoOrderly
import Verif.Lemmas.Income
/-!
C62: distributed tokens reach the stakers, except for dust.
-/

namespace Verif

open Spec

section
variable {env : Env}

/-- C62: in every history in which the deposit authority only reports operations on real stakes (as in C51), a distribution
of `r` tokens over the total stake `T` credits all stakers together at most `r` tokens, and less than that by less than
`T / 10^16` tokens (`ks` is any list of accounts without repetition that contains all stakers and delegates).
Partial: the conditions on the history are those of C51; `C62_false_penalty` shows that tokens are lost otherwise.
`hidx`: the minings have not consumed an index beyond the pool's (which always holds in orderly histories,
`C62_index_orderly`). -/
theorem C62_dust_partial (hi : env.PdaInjective) {P : Key} {s0 s : Chain} {es : List Event} {L : Ledger} {p : Pool}
    (hg : Genesis env s0) (hr : LedgerRuns env P s0 [] es s L) (hp : PoolAt env s.world P p) {w' : World}
    {accs : List AccountInfo} {ret : Option Nat} (hs : RealSigners accs)
    (h : exec env s.now s.world accs .distributeRewards = .ok (w', ret)) (hfirst : FirstIs accs P)
    (hroom : p.cumulative.length < env.caps.index) (hnew : NewDay p s.now)
    (hidx : ∀ k m, Member env s.world P k m → m.index ≤ p.index) {ks : List Key} (hk : ks.Nodup)
    (hall : ∀ y ∈ L, 0 < y.amount → y.mining ∈ ks ∧ y.delegate ∈ ks) :
    ∃ p' T, PoolAt env w' P p' ∧ totalOn p (midnight s.now) = (T : Nat) ∧ 0 < T ∧
      let r := dailyAmount p.tokensAvailable p.distributionEndsAt s.now
      p'.tokensAvailable + r = p.tokensAvailable ∧
      owedTotal env w' P p'.cumulative ks ≤ owedTotal env s.world P p.cumulative ks + 10 ^ 16 * r ∧
      owedTotal env s.world P p.cumulative ks + 10 ^ 16 * r < owedTotal env w' P p'.cumulative ks + T := by
  have hre : Reachable env s := ⟨s0, es, hg, hr.clean⟩
  have hw := reachable_wf hre
  have hearn := (ledger_booked hi ((hw P).nonzero hp.1) hg hr).earning hp (Nat.le_refl _) hk hall
  have hstep := step_of_exec hw hs (by exact trivial) h
  cases hstep with
  | stake _ op => exact op.elim
  | @distribute P' B rest q p' r accs_eq signed auth good pool pool' amount op same ok' frame shell =>
    subst accs_eq
    obtain rfl : P'.key = P := by simpa [FirstIs] using hfirst
    obtain rfl := PoolAt.unique hp pool
    obtain ⟨T, h1, h2, h3, h4, rfl⟩ := distribute_new good.ok hnew op
    have hamount : r = dailyAmount p.tokensAvailable p.distributionEndsAt s.now := rewardsToDistribute_ok amount
    have hlast := index_recorded hre hp hroom
    refine ⟨_, T, pool', h1, h2, ?_⟩
    simp only [if_pos hroom, ← hamount]
    have hsum : owedTotal env w' P'.key (p.cumulative ++ [(midnight s.now, p.index + 10 ^ 16 * r / T)]) ks =
        owedTotal env s.world P'.key p.cumulative ks +
          10 ^ 16 * r / T * earningTotal env s.world P'.key (midnight s.now) ks := by
      unfold owedTotal earningTotal
      rw [← sumOver_add_mul]
      refine sumOver_congr fun k _ => ?_
      have hmem : ∀ m, Member env w' P'.key k m ↔ Member env s.world P'.key k m := by
        intro m
        by_cases e : k = P'.key
        · subst e
          exact ⟨fun h => absurd h.1 (PoolAt.not_mining pool'), fun h => absurd h.1 (PoolAt.not_mining hp)⟩
        · unfold Member; rw [miningAt_congr (frame k e)]
      rcases ofMember_cases (env := env) (w := s.world) (P := P'.key) (k := k) (fun m => owed m p.cumulative)
        with ⟨m, k1, -⟩ | ⟨k1, -⟩
      · rw [ofMember_eq ((hmem m).mpr k1), ofMember_eq k1, ofMember_eq k1, hlast,
          owed_append good.ok.history (by rw [← hlast]; exact hidx k m k1)]
      · rw [ofMember_zero (fun m hm => k1 m ((hmem m).mp hm)), ofMember_zero k1, ofMember_zero k1]
        simp
    have hT : earningTotal env s.world P'.key (midnight s.now) ks = T := by
      rw [h1] at hearn; exact_mod_cast hearn
    rw [hsum, hT]
    have h5 := Nat.div_mul_le_self (10 ^ 16 * r) T
    have h6 : 10 ^ 16 * r < 10 ^ 16 * r / T * T + T := by
      have := Nat.lt_mul_div_succ (10 ^ 16 * r) h2
      rw [Nat.mul_add, Nat.mul_comm T, Nat.mul_one] at this
      exact this
    refine ⟨Nat.sub_add_cancel h3, by omega, by omega⟩

/-- In orderly histories no mining has consumed an index beyond the pool's. -/
theorem C62_index_orderly (hi : env.PdaInjective) {P V : Key} {s0 s : Chain} {es : List Event} (hg : Genesis env s0)
    (hr : RunsWith env (Orderly env P V) s0 es s) (hn : s.now < 2 ^ 64) {p : Pool} (hp : PoolAt env s.world P p)
    (hV : env.findVault P p.rewardMint = some (V, p.bump)) {k : Key} {m : Mining} (hm : Member env s.world P k m) :
    m.index ≤ p.index := by
  have hP0 : P ≠ 0 := orderly_pool_ne_zero hg hr hp
  obtain ⟨-, hw, -, hs⟩ := runs_solvent hi hP0 hg hr hn
  have h1 := ((hs.books p hp hV).sound k m hm).index
  have hok := (poolAt_good hw hp).ok
  exact Nat.le_trans h1 (Nat.le_trans (indexBefore_le_last hok.history _) (lastIndex_le (Nat.zero_le _) hok.index))

end

section Examples
open Demo

/-- An honest history after which a distribution is due. -/
def dueStory : List (Event × Nat) := ledgerStory ++ [(fill 100 3000 (day0 + 130 * DAY), 0), (.tick DAY, 0)]

def due : Chain × Ledger := (ledgerRun 100 s0 [] dueStory).getD (s0, [])

example : Genesis Demo.env s0 ∧ LedgerRuns Demo.env 100 s0 [] (dueStory.map (·.1)) due.1 due.2 :=
  ⟨s0_genesis, ledgerRun_eq (by decide +kernel)⟩

example : okEvent due.1 (distribute 100) = true ∧ hasPool due.1.world 100 (fun p =>
    decide (p.cumulative.length < Demo.env.caps.index ∧ NewDay p due.1.now ∧
      0 < dailyAmount p.tokensAvailable p.distributionEndsAt due.1.now ∧
      (∀ y ∈ due.2, 0 < y.amount → y.mining ∈ [mine 120 100, mine 121 100] ∧ y.delegate ∈ [mine 120 100, mine 121 100])) &&
    hasMining due.1.world (mine 120 100) (fun m => decide (m.index ≤ p.index)) &&
    hasMining due.1.world (mine 121 100) (fun m => decide (m.index ≤ p.index))) = true := by decide +kernel

/-- `C62_index_orderly` applies to a history with all kinds of operations and two members. -/
example : Genesis Demo.env s0 ∧ RunsWith Demo.env (Orderly Demo.env 100 (vaultOf 100 101)) s0 orderlyStory afterOrderly ∧
    memberB afterOrderly.world 100 (mine 120 100) (fun m => decide (0 < m.index)) = true :=
  ⟨s0_genesis, orderlyStory_runs, by decide +kernel⟩

/-- C62 is false after DecreaseRewards: the only staker has 2000 of their weighted stake of 3000 left, and of the 1111
tokens distributed only 741 are credited to them; the rest stays in the vault for ever. -/
def penalized : List Event :=
  [initPool 100, initMining 100 120, deposit 100 120 500 .oneYear 120, decrease 100 120 1000,
    fill 100 10000 (day0 + 10 * DAY)]

theorem C62_false_penalty : ∃ s s', RunsWith Demo.env (CleanEvent Demo.env) s0 penalized s ∧
    RunsWith Demo.env (CleanEvent Demo.env) s [distribute 100] s' ∧ ∃ p p' m m',
      PoolAt Demo.env s.world 100 p ∧ PoolAt Demo.env s'.world 100 p' ∧
      p.tokensAvailable = 10000 ∧ p'.tokensAvailable = 8889 ∧
      Member Demo.env s.world 100 (mine 120 100) m ∧ Member Demo.env s'.world 100 (mine 120 100) m' ∧
      owed m p.cumulative = 0 ∧ owed m' p'.cumulative < 10 ^ 16 * 741 := by
  refine ⟨(run s0 penalized).getD s0, ((run s0 penalized).getD s0).apply Demo.env (distribute 100),
    run_sound (run_eq (by decide +kernel)), ?_, ?_⟩
  · obtain ⟨h1, h2⟩ := okEvent_sound (s := (run s0 penalized).getD s0) (e := distribute 100) (by decide +kernel)
    exact .cons h1 h2 (.nil _)
  · have h : hasPool ((run s0 penalized).getD s0).world 100 (fun p =>
        hasPool (((run s0 penalized).getD s0).apply Demo.env (distribute 100)).world 100 fun p' =>
        memberB ((run s0 penalized).getD s0).world 100 (mine 120 100) fun m =>
        memberB (((run s0 penalized).getD s0).apply Demo.env (distribute 100)).world 100 (mine 120 100) fun m' =>
        decide (p.tokensAvailable = 10000 ∧ p'.tokensAvailable = 8889 ∧ owed m p.cumulative = 0 ∧
          owed m' p'.cumulative < 10 ^ 16 * 741)) = true := by decide +kernel
    obtain ⟨p, hp, h⟩ := hasPool_sound h
    obtain ⟨p', hp', h⟩ := hasPool_sound h
    obtain ⟨m, hm, h⟩ := memberB_sound h
    obtain ⟨m', hm', h⟩ := memberB_sound h
    simp only [decide_eq_true_eq] at h
    exact ⟨p, p', m, m', hp, hp', h.1, h.2.1, hm, hm', h.2.2.1, h.2.2.2⟩

end Examples

end Verif
