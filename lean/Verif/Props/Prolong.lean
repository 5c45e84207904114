import Verif.Lemmas.Prolong
import Verif.Lemmas.DemoIncentive
/-!
C107: extending a stake.
-/

namespace Verif

open Spec

section
variable {env : Env}

/-- C107: let a history (orderly for the pool: see `Orderly`) be continued in two ways, the second of which begins with the extension of a
stake (running or not) that from then on weighs on every day at least as much as before, and which go on with the same events (only what
other programs do may differ), the mining doing nothing.  Tokens may be added only if the stake is not delegated.  Then the mining is in
the end owed at least as much in the second history as in the first, except for roundings: 1/10^16 token per unit of its stake and
distribution, and a token for each of its expirations that the extension processes and one more.  Missing for the full property: tokens
added to delegated stake, histories that are not orderly, full tables (as for `C86_more_partial`). -/
theorem C107_extend_partial (hi : env.PdaInjective) {s0 s s1 s2 : Chain} {es0 es es' : List Event} {accs rest : List AccountInfo}
    {P M A D : AccountInfo} {V : Key} {a b ts : Nat} {old new : LockupPeriod} {o d : Key} {w2 : World} {r2 : Option Nat}
    {p p1 p2 : Pool} (hg : Genesis env s0) (hr0 : RunsWith env (Orderly env P.key V) s0 es0 s)
    (hp : PoolAt env s.world P.key p) (hV : env.findVault P.key p.rewardMint = some (V, p.bump))
    (hpl : 0 < (s.world P.key).lamports) (hml : 0 < (s.world M.key).lamports)
    (hs : RealSigners accs) (hacc : accs = P :: M :: A :: D :: rest)
    (h2 : exec env s.now s.world accs (.extendStake old new ts b a o d) = .ok (w2, r2))
    (hgain : Gains s.now old ts b new (b + a)) (hself : D.key = M.key ∨ a = 0)
    (hm : RoomInMining env M.key s new) (hp2 : RoomInPool env P.key s (.ix accs (.extendStake old new ts b a o d)))
    (hr1 : RunsWith env (fun s e => Orderly env P.key V s e ∧ RoomInPool env P.key s e ∧ Spares M.key e) s es s1)
    (hr2 : RunsWith env (fun s e => CleanEvent env s e ∧ RoomInPool env P.key s e ∧ Spares M.key e) ⟨s.now, w2⟩ es' s2)
    (hal : Alike env SameEvent s ⟨s.now, w2⟩ es es') (hn : s1.now < 2 ^ 64)
    (hp1' : PoolAt env s1.world P.key p1) (hp2' : PoolAt env s2.world P.key p2)
    (hroom1 : p1.cumulative.length < env.caps.index) (hroom2 : p2.cumulative.length < env.caps.index) :
    ∃ m1 m2, MiningAt env s1.world M.key m1 ∧ MiningAt env s2.world M.key m2 ∧ MiningAt env s.world M.key m1 ∧
      owed m1 p1.cumulative ≤ owed m2 p2.cumulative + totalIn env (takesPart env P.key m2) ⟨s.now, w2⟩ es' +
        10 ^ 16 * (expiredCount m1 (midnight s.now) + 1) := by
  have hre : Reachable env s := ⟨s0, es0, hg, hr0.weaken fun _ _ h => h.clean⟩
  have hw := reachable_wf hre
  obtain ⟨k, n, k', n', m, q2, m2, u, u', hmem, hq2, hm2, hbud, -, hap, hwt, hsfo, hcr, hlam, -⟩ := extend_changes hw hs hacc h2 hp2 hp
  have hwt := hwt hm
  have hc0 : ∀ x, midnight s.now ≤ x → 0 ≤ - stakeWeight b k (midnight ts + 86400 * n) x +
      stakeWeight (b + a) k' (midnight s.now + 86400 * n') x := by
    intro x hx
    have := hgain k n k' n' u u' x hx
    omega
  have hh := (poolAt_good hw hp).ok.history
  have hmo := (miningAt_ok hw hmem.1).1
  have hidx : indexBefore p.cumulative s.now ≤ p.index :=
    Nat.le_trans (indexBefore_le_last hh _) (lastIndex_le (Nat.zero_le _) (poolAt_good hw hp).ok.index)
  have ci := credited_index hh hmo hcr
  have st2 : s.apply env (.ix accs (.extendStake old new ts b a o d)) = ⟨s.now, w2⟩ := apply_ix_ok h2
  have hre2 : Reachable env ⟨s.now, w2⟩ := by rw [← st2]; exact hre.step hs trivial
  have hu : owed m p.cumulative ≤ owed m2 q2.cumulative + 10 ^ 16 * (expiredCount m (midnight s.now) + 1) := by
    rw [hbud.2.2.2]
    obtain ⟨x, g1, g2, g3⟩ := hcr
    obtain ⟨-, f2, f3, -, f5, f6⟩ := refresh_owed hh hmo g1
    have : owed x p.cumulative ≤ owed m2 p.cumulative := by
      refine owed_le_now hh (g3.trans f3) g3.symm g2 fun y hy => ?_
      rw [f6 y (by rw [bod_eq_midnight]; exact hy)]
      have e1 := hwt y hy
      have e2 := hc0 y hy
      simp only [earningOn, weightOn] at *
      omega
    rw [bod_eq_midnight] at f2
    omega
  refine ⟨m, m2, ?_⟩
  obtain ⟨z1, z2, z3⟩ := compare_most hi (r := 10 ^ 16 * (expiredCount m (midnight s.now) + 1))
    (c := fun x => - stakeWeight b k (midnight ts + 86400 * n) x + stakeWeight (b + a) k' (midnight s.now + 86400 * n') x) hg hr0
    hre2 rfl hp hq2
    hV hpl (by rw [hlam]; exact hpl) hml (by rw [hlam]; exact hml) hmem hm2.1
    (SameSchedule.budget ⟨rfl, rfl, rfl⟩ ⟨rfl, rfl, rfl, rfl⟩ hbud) hap (fun x hx => by
      have := stakeWeight_le (a := b) (e := midnight ts + 86400 * n) (x := x) (terms_one u)
      have h0 : (if D.key = M.key then 0 else (a : Int)) = 0 := by
        rcases hself with h | h
        · rw [if_pos h]
        · rw [h]; simp
      rw [h0]
      split <;> omega) hc0 hwt hsfo (Nat.le_trans ci.1 hidx) (by rw [hbud.2.2.1, ci.2]; exact hidx) hu hr1 hr2 hal hn hp1' hp2'
    hroom1 hroom2
  exact ⟨z1, z2, hmem.1, z3⟩

/-- C107, for the others: let a history be continued in two ways, the second of which begins with the extension of a stake (delegated or
not) whose tokens are free and that from then on weighs on every day at least as much as before, and which go on with the same events
(only what other programs do may differ).  A mining that does nothing meanwhile, other than the extended one and its delegate, is in the
end owed at most as much in the second history as in the first.  Missing for the full property: stakes whose lock is running
(`C107_others_false`). -/
theorem C107_others_partial {s s1 s2 : Chain} {es es' : List Event} {accs rest : List AccountInfo} {P M A D : AccountInfo}
    {K : Key} {a b ts : Nat} {old new : LockupPeriod} {o d : Key} {w2 : World} {r2 : Option Nat} {p p1 p2 : Pool}
    {m : Mining} (hre : Reachable env s) (hp : PoolAt env s.world P.key p) (hpl : 0 < (s.world P.key).lamports)
    (hm : MiningAt env s.world K m) (hml : 0 < (s.world K).lamports) (hidx : m.index ≤ p.index)
    (hKM : K ≠ M.key) (hKD : K ≠ D.key) (hs : RealSigners accs) (hacc : accs = P :: M :: A :: D :: rest)
    (h2 : exec env s.now s.world accs (.extendStake old new ts b a o d) = .ok (w2, r2))
    (hgain : Gains s.now old ts b new (b + a)) (hfree : TokensFree s.now old ts)
    (hp2 : RoomInPool env P.key s (.ix accs (.extendStake old new ts b a o d)))
    (hr1 : RunsWith env (fun s e => CleanEvent env s e ∧ RoomInPool env P.key s e ∧ Spares K e) s es s1)
    (hr2 : RunsWith env (fun s e => CleanEvent env s e ∧ RoomInPool env P.key s e ∧ Spares K e) ⟨s.now, w2⟩ es' s2)
    (hal : Alike env SameEvent s ⟨s.now, w2⟩ es es') (hp1' : PoolAt env s1.world P.key p1)
    (hp2' : PoolAt env s2.world P.key p2) (hroom1 : p1.cumulative.length < env.caps.index)
    (hroom2 : p2.cumulative.length < env.caps.index) :
    MiningAt env s1.world K m ∧ MiningAt env s2.world K m ∧ owed m p2.cumulative ≤ owed m p1.cumulative := by
  have hw := reachable_wf hre
  obtain ⟨k, n, k', n', m0, q2, m2, u, u', -, hq2, -, hbud, -, hap, -, -, -, hlam, hfr⟩ := extend_changes hw hs hacc h2 hp2 hp
  have hKP : K ≠ P.key := by
    rintro rfl
    have := hm.2; rw [hp.2] at this; cases this
  have f2 := hfr K hKP hKM hKD
  have st2 : s.apply env (.ix accs (.extendStake old new ts b a o d)) = ⟨s.now, w2⟩ := apply_ix_ok h2
  have hre2 : Reachable env ⟨s.now, w2⟩ := by rw [← st2]; exact hre.step hs trivial
  have hno : ¬ (old ≠ .flex ∧ s.now < midnight ts + 86400 * n) := by
    rintro ⟨h1, h3⟩
    rcases hfree with h | ⟨x, y, h4, -, h5⟩
    · exact h1 h
    · rw [u] at h4
      cases h4
      omega
  simp only [if_neg hno] at hap
  exact compare_others hre hre2 rfl hp hq2 hpl (by rw [hlam]; exact hpl) hml (by rw [hlam]; exact hml) hm
    ((miningAt_congr f2).mpr hm) (SameSchedule.budget ⟨rfl, rfl, rfl⟩ ⟨rfl, rfl, rfl, rfl⟩ hbud) hap
    (fun x hx => by
      have := hgain k n k' n' u u' x hx
      split <;> omega) hidx
    (by rw [hbud.2.2.1]; exact hidx) (by rw [hbud.2.2.2]; exact Nat.le_refl _) hr1 hr2 hal hp1' hp2' hroom1 hroom2

end

/-- At least as many tokens, for at least as long and with at least the multiplier. -/
theorem gains_of {now ts b c k n k' n' : Nat} {old new : LockupPeriod} (h : terms old = some (k, n)) (h' : terms new = some (k', n'))
    (hb : b ≤ c) (hk : k ≤ k') (he : midnight ts + 86400 * n ≤ midnight now + 86400 * n') : Gains now old ts b new c := by
  intro k1 n1 k2 n2 e1 e2 x _
  rw [h] at e1; rw [h'] at e2
  cases e1; cases e2
  have h1 : b * k ≤ c * k' := Nat.mul_le_mul hb hk
  have h2 : b * 1 ≤ b * k := Nat.mul_le_mul_left _ (terms_one h)
  have h3 : c * 1 ≤ c * k' := Nat.mul_le_mul_left _ (terms_one h')
  have q1 : (b : Int) * k = ((b * k : Nat) : Int) := by simp
  have q2 : (c : Int) * k' = ((c * k' : Nat) : Int) := by simp
  unfold stakeWeight
  rw [q1, q2]
  split <;> split <;> omega

/-! ### Concrete cases -/

section Examples
open Demo

/-- User 121 has 10000 flexible tokens, user 120 a stake of 500 tokens for a year and 400 flexible ones; then a day passes. -/
def beforeExtending : List Event := [initPool 100, initMining 100 121, initMining 100 120, deposit 100 121 10000 .flex 121,
  deposit 100 120 500 .oneYear 120, deposit 100 120 400 .flex 120, fill 100 100000 (day0 + 1000 * DAY), distribute 100, .tick DAY]

/-- Distributions during the lock, and long after it. -/
def afterExtending : List Event := [.tick DAY, distribute 100, .tick (100 * DAY), distribute 100, .tick (400 * DAY), distribute 100]

def extending : Chain := (run s0 beforeExtending).getD s0

def extendingAccs : List AccountInfo := [W 100, W (mine 120 100), S 110, W (mine 120 100)]

/-- What `C107_extend_partial` asks of the extension `i`, besides `Gains`; it earns something. -/
def ExtendCase (i : Ix) (new : LockupPeriod) : Prop :=
  ∃ w2 r2 s1 s2, Genesis Demo.env s0 ∧
    (∃ es0, RunsWith Demo.env (Orderly Demo.env 100 (vaultOf 100 101)) s0 es0 extending) ∧
    exec Demo.env extending.now extending.world extendingAccs i = .ok (w2, r2) ∧
    RoomInPool Demo.env 100 extending (.ix extendingAccs i) ∧ RoomInMining Demo.env (mine 120 100) extending new ∧
    Alike Demo.env SameEvent extending ⟨extending.now, w2⟩ afterExtending afterExtending ∧
    RunsWith Demo.env (fun s e => Orderly Demo.env 100 (vaultOf 100 101) s e ∧ RoomInPool Demo.env 100 s e ∧
      Spares (mine 120 100) e) extending afterExtending s1 ∧
    RunsWith Demo.env (fun s e => CleanEvent Demo.env s e ∧ RoomInPool Demo.env 100 s e ∧
      Spares (mine 120 100) e) ⟨extending.now, w2⟩ afterExtending s2 ∧ s1.now < 2 ^ 64 ∧
    hasPool s1.world 100 (fun p => decide (p.cumulative.length < Demo.env.caps.index)) = true ∧
    hasPool s2.world 100 (fun p => decide (p.cumulative.length < Demo.env.caps.index)) = true ∧
    hasPool s1.world 100 (fun p1 => hasPool s2.world 100 (fun p2 => hasMining s1.world (mine 120 100) (fun m1 =>
      hasMining s2.world (mine 120 100) (fun m2 => decide (owed m1 p1.cumulative + 10 ^ 16 < owed m2 p2.cumulative))))) = true

/-- `C107_extend_partial` applies to a running lock, extended for another year with 20 tokens more. -/
example : ExtendCase (.extendStake .oneYear .oneYear (day0 + 100) 500 20 120 120) .oneYear ∧
    Gains extending.now .oneYear (day0 + 100) 500 .oneYear (500 + 20) := by
  obtain ⟨w2, r2, h2, h3, h4, h5⟩ := without_and_with (s := extending) (es := afterExtending) (accs := extendingAccs)
    (i := .extendStake .oneYear .oneYear (day0 + 100) 500 20 120 120)
    (tidyB_sound (P := 100) (V := vaultOf 100 101) (k := mine 120 100)) (cleanB_sound (P := 100) (k := mine 120 100))
    tidyB_ok cleanB_ok (by decide +kernel) (by decide +kernel) (by decide +kernel)
  exact ⟨⟨w2, r2, _, _, s0_genesis, ⟨_, orderlyRun_eq (es := beforeExtending) (by decide +kernel)⟩, h2, roomInPoolB_sound (by decide +kernel),
    roomInMiningB_sound (by decide +kernel), h3, h4, h5, by decide +kernel, by decide +kernel, by decide +kernel,
    by decide +kernel⟩, gains_of rfl rfl (by decide) (by decide) (by decide +kernel)⟩

/-- And to flexible tokens that are locked for half a year. -/
example : ExtendCase (.extendStake .flex .sixMonths (day0 + 100) 400 0 120 120) .sixMonths ∧
    Gains extending.now .flex (day0 + 100) 400 .sixMonths (400 + 0) := by
  obtain ⟨w2, r2, h2, h3, h4, h5⟩ := without_and_with (s := extending) (es := afterExtending) (accs := extendingAccs)
    (i := .extendStake .flex .sixMonths (day0 + 100) 400 0 120 120)
    (tidyB_sound (P := 100) (V := vaultOf 100 101) (k := mine 120 100)) (cleanB_sound (P := 100) (k := mine 120 100))
    tidyB_ok cleanB_ok (by decide +kernel) (by decide +kernel) (by decide +kernel)
  exact ⟨⟨w2, r2, _, _, s0_genesis, ⟨_, orderlyRun_eq (es := beforeExtending) (by decide +kernel)⟩, h2, roomInPoolB_sound (by decide +kernel),
    roomInMiningB_sound (by decide +kernel), h3, h4, h5, by decide +kernel, by decide +kernel, by decide +kernel,
    by decide +kernel⟩, gains_of rfl rfl (by decide) (by decide) (by decide +kernel)⟩

/-- `C107_others_partial` applies to user 121 when user 120 locks flexible tokens. -/
example : ∃ w2 r2 s1 s2, Reachable Demo.env extending ∧
    exec Demo.env extending.now extending.world extendingAccs (.extendStake .flex .sixMonths (day0 + 100) 400 20 120 120) = .ok (w2, r2) ∧
    Gains extending.now .flex (day0 + 100) 400 .sixMonths (400 + 20) ∧ TokensFree extending.now .flex (day0 + 100) ∧
    RoomInPool Demo.env 100 extending (extend 100 120 .flex .sixMonths (day0 + 100) 400 20 120) ∧
    Alike Demo.env SameEvent extending ⟨extending.now, w2⟩ afterExtending afterExtending ∧
    RunsWith Demo.env (fun s e => CleanEvent Demo.env s e ∧ RoomInPool Demo.env 100 s e ∧
      Spares (mine 121 100) e) extending afterExtending s1 ∧
    RunsWith Demo.env (fun s e => CleanEvent Demo.env s e ∧ RoomInPool Demo.env 100 s e ∧
      Spares (mine 121 100) e) ⟨extending.now, w2⟩ afterExtending s2 ∧
    hasPool s1.world 100 (fun p => decide (p.cumulative.length < Demo.env.caps.index)) = true ∧
    hasPool s2.world 100 (fun p => decide (p.cumulative.length < Demo.env.caps.index)) = true ∧
    hasPool s1.world 100 (fun p1 => hasPool s2.world 100 (fun p2 => hasMining s1.world (mine 121 100) (fun m =>
      decide (owed m p2.cumulative < owed m p1.cumulative)))) = true := by
  obtain ⟨w2, r2, h2, h3, h4, h5⟩ := without_and_with (s := extending) (es := afterExtending) (accs := extendingAccs)
    (i := .extendStake .flex .sixMonths (day0 + 100) 400 20 120 120)
    (cleanB_sound (P := 100) (k := mine 121 100)) (cleanB_sound (P := 100) (k := mine 121 100))
    cleanB_ok cleanB_ok (by decide +kernel) (by decide +kernel) (by decide +kernel)
  exact ⟨w2, r2, _, _, after_reachable (by decide +kernel), h2, gains_of rfl rfl (by decide) (by decide) (by decide +kernel),
    Or.inl rfl, roomInPoolB_sound (by decide +kernel), h3, h4, h5, by decide +kernel, by decide +kernel, by decide +kernel⟩

/-- C107 is false for the others if the lock is running: the pool takes the old expiration off a second time, so its total is too low
after the end of the old lock, and everybody earns too much; here user 121 gets more than 20 tokens more because user 120 has extended
their stake. -/
theorem C107_others_false : ∃ s s1 s2 p1 p2 m, Reachable Demo.env s ∧
    Gains s.now .oneYear (day0 + 100) 500 .oneYear (500 + 0) ∧
    RunsWith Demo.env (CleanEvent Demo.env) s afterExtending s1 ∧
    RunsWith Demo.env (CleanEvent Demo.env) s (extend 100 120 .oneYear .oneYear (day0 + 100) 500 0 120 :: afterExtending) s2 ∧
    PoolAt Demo.env s1.world 100 p1 ∧ PoolAt Demo.env s2.world 100 p2 ∧ MiningAt Demo.env s1.world (mine 121 100) m ∧
    MiningAt Demo.env s2.world (mine 121 100) m ∧ owed m p1.cumulative + 10 ^ 16 * 20 < owed m p2.cumulative := by
  let s1 := endOf extending afterExtending
  let s2 := endOf extending (extend 100 120 .oneYear .oneYear (day0 + 100) 500 0 120 :: afterExtending)
  have h : hasPool s1.world 100 (fun p1 => hasPool s2.world 100 (fun p2 => hasMining s1.world (mine 121 100) (fun m1 =>
      hasMining s2.world (mine 121 100) (fun m2 =>
        decide (m2 = m1 ∧ owed m1 p1.cumulative + 10 ^ 16 * 20 < owed m1 p2.cumulative))))) = true := by decide +kernel
  obtain ⟨p1, hp1, h⟩ := hasPool_sound h
  obtain ⟨p2, hp2, h⟩ := hasPool_sound h
  obtain ⟨m1, hm1, h⟩ := hasMining_sound h
  obtain ⟨m2, hm2, h⟩ := hasMining_sound h
  obtain ⟨rfl, h⟩ := of_decide_eq_true h
  exact ⟨extending, s1, s2, p1, p2, _, after_reachable (by decide +kernel),
    gains_of rfl rfl (by decide) (by decide) (by decide +kernel), allPass_sound (fun _ _ h => okEvent_sound h) (by decide +kernel),
    allPass_sound (fun _ _ h => okEvent_sound h) (by decide +kernel), hp1, hp2, hm1, hm2, h⟩

/-- C107 is false if tokens are added to delegated stake (as `C86_more_partial` is, see `C86_delegated_false`): user 120, the only
staker, with 1000 tokens, one of them delegated, adds 1000 to that one; the distribution pays them more than 300 tokens less. -/
theorem C107_delegated_false : ∃ s s1 s2 p1 p2 m1 m2, Reachable Demo.env s ∧
    Gains s.now .flex (day0 + 100) 1 .flex (1 + 1000) ∧
    RunsWith Demo.env (CleanEvent Demo.env) s [distribute 100] s1 ∧
    RunsWith Demo.env (CleanEvent Demo.env) s [extend 100 120 .flex .flex (day0 + 100) 1 1000 121, distribute 100] s2 ∧
    PoolAt Demo.env s1.world 100 p1 ∧ PoolAt Demo.env s2.world 100 p2 ∧ MiningAt Demo.env s1.world (mine 120 100) m1 ∧
    MiningAt Demo.env s2.world (mine 120 100) m2 ∧ owed m2 p2.cumulative + 10 ^ 16 * 300 < owed m1 p1.cumulative := by
  let s := (run s0 (delegatedBefore ++ [deposit 100 120 1 .flex 121])).getD s0
  let s1 := endOf s [distribute 100]
  let s2 := endOf s [extend 100 120 .flex .flex (day0 + 100) 1 1000 121, distribute 100]
  have h : hasPool s1.world 100 (fun p1 => hasPool s2.world 100 (fun p2 => hasMining s1.world (mine 120 100) (fun m1 =>
      hasMining s2.world (mine 120 100) (fun m2 =>
        decide (owed m2 p2.cumulative + 10 ^ 16 * 300 < owed m1 p1.cumulative))))) = true := by decide +kernel
  obtain ⟨p1, hp1, h⟩ := hasPool_sound h
  obtain ⟨p2, hp2, h⟩ := hasPool_sound h
  obtain ⟨m1, hm1, h⟩ := hasMining_sound h
  obtain ⟨m2, hm2, h⟩ := hasMining_sound h
  exact ⟨s, s1, s2, p1, p2, m1, m2, after_reachable (by decide +kernel),
    gains_of rfl rfl (by decide) (by decide) (by decide +kernel), allPass_sound (fun _ _ h => okEvent_sound h) (by decide +kernel),
    allPass_sound (fun _ _ h => okEvent_sound h) (by decide +kernel), hp1, hp2, hm1, hm2, of_decide_eq_true h⟩

end Examples

end Verif
