import Verif.Lemmas.Incentive
import Verif.Props.Solvency
import Verif.Lemmas.DemoIncentive
import Verif.Props.Order
/-!
C86, C87: staking more or for longer never earns less, and never lets others earn more.
-/

namespace Verif

open Spec

section
variable {env : Env}

/-- C86: let a history (orderly for the pool: see `Orderly`) be continued in two ways, which begin with a deposit for the
same mining, the second at least as large and as long as the first, and then go on with the same events (only what other
programs do may differ), the mining doing nothing.  The deposits may differ in the amount only if they are not delegated (see `C86_delegated_false`).  Then the mining
is in the end owed at least as much in the second history as in the first, except for roundings: 1/10^16 token per unit of
its stake and distribution.  Missing for the full property: histories that are not orderly, full tables. -/
theorem C86_more_partial (hi : env.PdaInjective) {s0 s s1 s2 : Chain} {es0 es es' : List Event} {accs rest : List AccountInfo}
    {P M A D : AccountInfo} {V : Key} {a a' : Nat} {l l' : LockupPeriod} {o d : Key} {w1 w2 : World} {r1 r2 : Option Nat}
    {p p1 p2 : Pool} (hg : Genesis env s0) (hr0 : RunsWith env (Orderly env P.key V) s0 es0 s)
    (hp : PoolAt env s.world P.key p) (hV : env.findVault P.key p.rewardMint = some (V, p.bump))
    (hpl : 0 < (s.world P.key).lamports) (hml : 0 < (s.world M.key).lamports)
    (hs : RealSigners accs) (hacc : accs = P :: M :: A :: D :: rest)
    (h1 : exec env s.now s.world accs (.depositMining a l o d) = .ok (w1, r1))
    (h2 : exec env s.now s.world accs (.depositMining a' l' o d) = .ok (w2, r2))
    (hle : AtLeast a l a' l') (hself : D.key = M.key ∨ a = a')
    (hord : Orderly env P.key V s (.ix accs (.depositMining a l o d))) (hm : RoomInMining env M.key s l')
    (hp1 : RoomInPool env P.key s (.ix accs (.depositMining a l o d)))
    (hp2 : RoomInPool env P.key s (.ix accs (.depositMining a' l' o d)))
    (hr1 : RunsWith env (fun s e => Orderly env P.key V s e ∧ RoomInPool env P.key s e ∧ Spares M.key e) ⟨s.now, w1⟩ es s1)
    (hr2 : RunsWith env (fun s e => CleanEvent env s e ∧ RoomInPool env P.key s e ∧ Spares M.key e) ⟨s.now, w2⟩ es' s2)
    (hal : Alike env SameEvent ⟨s.now, w1⟩ ⟨s.now, w2⟩ es es') (hn : s1.now < 2 ^ 64)
    (hp1' : PoolAt env s1.world P.key p1) (hp2' : PoolAt env s2.world P.key p2)
    (hroom1 : p1.cumulative.length < env.caps.index) (hroom2 : p2.cumulative.length < env.caps.index) :
    ∃ m1 m2, MiningAt env s1.world M.key m1 ∧ MiningAt env s2.world M.key m2 ∧
      owed m1 p1.cumulative ≤ owed m2 p2.cumulative + totalIn env (takesPart env P.key m2) ⟨s.now, w2⟩ es' := by
  have hre : Reachable env s := ⟨s0, es0, hg, hr0.weaken fun _ _ h => h.clean⟩
  have hw := reachable_wf hre
  obtain ⟨δ, c, q1, q2, m, m1, m2, a1, b1, a2, b2, a3, hδ, hap, hc, hmem, hm1, hm2, hwt, hsfo, hun, hi1, hi2, -, hlam⟩ :=
    two_deposits hw hs hacc h1 h2 hle hp1 hp2 hp
  have hc := hc hself
  subst hc
  have hst := hord.2.stake (by rw [hacc]; rfl) M.key m p (by rw [hacc]; rfl) hmem.1 hp
  have hset : Settled p.cumulative s.now := hst.1
  have hwt := hwt (fun x k n hx ht => by rw [MiningAt.unique hx hmem.1]; exact hst.2 k n ht) hm
  have st1 : s.apply env (.ix accs (.depositMining a l o d)) = ⟨s.now, w1⟩ := apply_ix_ok h1
  have st2 : s.apply env (.ix accs (.depositMining a' l' o d)) = ⟨s.now, w2⟩ := apply_ix_ok h2
  have hro : RunsWith env (Orderly env P.key V) s0 (es0 ++ [.ix accs (.depositMining a l o d)]) ⟨s.now, w1⟩ :=
    hr0.append (.cons hs hord (by rw [st1]; exact .nil _))
  have hre1 : Reachable env ⟨s.now, w1⟩ := ⟨s0, _, hg, hro.weaken fun _ _ h => h.clean⟩
  have hre2 : Reachable env ⟨s.now, w2⟩ := by rw [← st2]; exact hre.step hs trivial
  have hok := (poolAt_good hw hp).ok
  have hidx : indexBefore p.cumulative s.now ≤ p.index := by
    rw [settled_index hset]
    exact lastIndex_le (Nat.zero_le _) hok.index
  have hpl1 : 0 < ((⟨s.now, w1⟩ : Chain).world P.key).lamports := by show 0 < (w1 _).lamports; rw [(hlam _).1]; exact hpl
  have hpl2 : 0 < ((⟨s.now, w2⟩ : Chain).world P.key).lamports := by show 0 < (w2 _).lamports; rw [(hlam _).2]; exact hpl
  have hml1 : 0 < ((⟨s.now, w1⟩ : Chain).world M.key).lamports := by show 0 < (w1 _).lamports; rw [(hlam _).1]; exact hml
  have hml2 : 0 < ((⟨s.now, w2⟩ : Chain).world M.key).lamports := by show 0 < (w2 _).lamports; rw [(hlam _).2]; exact hml
  obtain ⟨i1, i2⟩ := runs_income (hr1.weaken fun _ _ h => ⟨h.1.clean, h.2.2⟩) hre1 hm1.1 hml1 a1 hpl1
    (by rw [hi1, a2.2.2.1]; exact hidx) hp1' hroom1
  obtain ⟨j1, j2⟩ := runs_income (hr2.weaken fun _ _ h => ⟨h.1, h.2.2⟩) hre2 hm2 hml2 b1 hpl2
    (by rw [hi2, b2.2.2.1]; exact hidx) hp2' hroom2
  refine ⟨m1, m2, i1, j1, ?_⟩
  have e1 : owed m1 q1.cumulative = owed m2 q2.cumulative := by
    rw [a2.2.2.2, b2.2.2.2, owed_current hok.history (by rw [hi1, settled_index hset]; exact Nat.le_refl _),
      owed_current hok.history (by rw [hi2, settled_index hset]; exact Nat.le_refl _), hun]
  have hsch : SameSchedule q1 q2 := SameSchedule.budget ⟨rfl, rfl, rfl⟩ a2 b2
  have key : totalIn env (incomeBy env P.key m1) ⟨s.now, w1⟩ es ≤
      totalIn env (fun t e => incomeBy env P.key m2 t e + takesPart env P.key m2 t e) ⟨s.now, w2⟩ es' := by
    refine runs_lockstep (P := P.key) (δ := c) (J := fun t es => (∃ es0, RunsWith env (Orderly env P.key V) s0 es0 t) ∧
      (∃ q, PoolAt env t.world P.key q ∧ 0 < (t.world P.key).lamports ∧ q.rewardMint = p.rewardMint ∧ q.bump = p.bump) ∧
      (MiningAt env t.world M.key m1 ∧ 0 < (t.world M.key).lamports) ∧ s.now ≤ t.now ∧
      RunsWith env (fun s e => Orderly env P.key V s e ∧ RoomInPool env P.key s e ∧ Spares M.key e) t es s1)
      (fun _ _ => rfl) ?_ ?_
      (hr1.weaken fun _ _ h => ⟨h.1.clean, h.2.1⟩) (hr2.weaken fun _ _ h => ⟨h.1, h.2.1⟩) hal
      ⟨⟨_, hro⟩, ⟨q1, a1, hpl1, a3.2.2.2.1, a3.2.2.2.2.1⟩, ⟨hm1.1, hml1⟩, Nat.le_refl _, hr1⟩ rfl (reachable_wf hre1)
      (reachable_wf hre2) a1 b1 hpl1 hpl2 hsch hap
    · rintro t e es ⟨⟨es1, k1⟩, ⟨q, k2, k3, k4, k5⟩, ⟨k6, k7⟩, k8, k9⟩
      cases k9 with | cons v1 v2 v3 =>
      have hwt : Wf env t.now t.world := reachable_wf ⟨s0, _, hg, k1.weaken fun _ _ h => h.clean⟩
      obtain ⟨q', z1, z2, z3⟩ := apply_pool hwt v1 v2.1.clean k2 k3
      have hsp := z3.same_pool
      exact ⟨⟨_, k1.append (.cons v1 v2.1 (.nil _))⟩, ⟨q', z1, z2, hsp.rewardMint.trans k4, hsp.bump.trans k5⟩,
        spared_apply v1 v2.2.2 k6 k7, Nat.le_trans k8 (run_now_le (C := fun _ _ => True) (.cons v1 trivial (.nil _))), v3⟩
    · rintro t u e es x y ⟨⟨es1, k1⟩, ⟨q, k2, k3, k4, k5⟩, ⟨k6, k7⟩, k8, k9⟩ hnow wt wu v1 v2 c1 c2 px py sch hd hal
      obtain rfl := PoolAt.unique px k2
      have hmid : midnight s.now ≤ midnight t.now := by simp only [midnight]; omega
      refine income_le hnow wt v1 c1.1 hal px py sch hd (hδ _).1 (hwt _ hmid) hsfo ?_
      have := C10_total_stake_partial hi hg k1 (Nat.lt_of_le_of_lt (run_now_le k9) hn) px (by rw [k4, k5]; exact hV)
        (ks := [M.key]) (by simp) (Nat.le_refl _)
      simpa [earningTotal, sumOver, ofMember_eq (⟨k6, hm1.2⟩ : Member env t.world P.key M.key m1)] using this
  rw [totalIn_add] at key
  omega

/-- C87: let a history be continued in two ways, which begin with a deposit for the same mining, the second at least as
large and as long as the first (delegated or not), and then go on with the same events (only what other programs do may
differ).  A mining that does nothing
meanwhile, other than the one of the deposit and its delegate, is in the end owed at most as much in the second history as
in the first. -/
theorem C87_others_partial {s s1 s2 : Chain} {es es' : List Event} {accs rest : List AccountInfo} {P M A D : AccountInfo}
    {K : Key} {a a' : Nat} {l l' : LockupPeriod} {o d : Key} {w1 w2 : World} {r1 r2 : Option Nat} {p p1 p2 : Pool}
    {m : Mining} (hre : Reachable env s) (hp : PoolAt env s.world P.key p) (hpl : 0 < (s.world P.key).lamports)
    (hm : MiningAt env s.world K m) (hml : 0 < (s.world K).lamports) (hidx : m.index ≤ p.index)
    (hKM : K ≠ M.key) (hKD : K ≠ D.key) (hs : RealSigners accs) (hacc : accs = P :: M :: A :: D :: rest)
    (h1 : exec env s.now s.world accs (.depositMining a l o d) = .ok (w1, r1))
    (h2 : exec env s.now s.world accs (.depositMining a' l' o d) = .ok (w2, r2)) (hle : AtLeast a l a' l')
    (hp1 : RoomInPool env P.key s (.ix accs (.depositMining a l o d)))
    (hp2 : RoomInPool env P.key s (.ix accs (.depositMining a' l' o d)))
    (hr1 : RunsWith env (fun s e => CleanEvent env s e ∧ RoomInPool env P.key s e ∧ Spares K e) ⟨s.now, w1⟩ es s1)
    (hr2 : RunsWith env (fun s e => CleanEvent env s e ∧ RoomInPool env P.key s e ∧ Spares K e) ⟨s.now, w2⟩ es' s2)
    (hal : Alike env SameEvent ⟨s.now, w1⟩ ⟨s.now, w2⟩ es es') (hp1' : PoolAt env s1.world P.key p1)
    (hp2' : PoolAt env s2.world P.key p2) (hroom1 : p1.cumulative.length < env.caps.index)
    (hroom2 : p2.cumulative.length < env.caps.index) :
    MiningAt env s1.world K m ∧ MiningAt env s2.world K m ∧ owed m p2.cumulative ≤ owed m p1.cumulative := by
  have hw := reachable_wf hre
  obtain ⟨δ, c, q1, q2, x, x1, x2, a1, b1, a2, b2, -, hδ, hap, -, -, -, -, -, -, -, -, -, hfr, hlam⟩ :=
    two_deposits hw hs hacc h1 h2 hle hp1 hp2 hp
  have hKP : K ≠ P.key := by
    rintro rfl
    have := hm.2; rw [hp.2] at this; cases this
  obtain ⟨f1, f2⟩ := hfr K hKP hKM hKD
  have st1 : s.apply env (.ix accs (.depositMining a l o d)) = ⟨s.now, w1⟩ := apply_ix_ok h1
  have st2 : s.apply env (.ix accs (.depositMining a' l' o d)) = ⟨s.now, w2⟩ := apply_ix_ok h2
  have hre1 : Reachable env ⟨s.now, w1⟩ := by rw [← st1]; exact hre.step hs trivial
  have hre2 : Reachable env ⟨s.now, w2⟩ := by rw [← st2]; exact hre.step hs trivial
  have hpl1 : 0 < ((⟨s.now, w1⟩ : Chain).world P.key).lamports := by show 0 < (w1 _).lamports; rw [(hlam _).1]; exact hpl
  have hpl2 : 0 < ((⟨s.now, w2⟩ : Chain).world P.key).lamports := by show 0 < (w2 _).lamports; rw [(hlam _).2]; exact hpl
  have hml1 : 0 < ((⟨s.now, w1⟩ : Chain).world K).lamports := by show 0 < (w1 _).lamports; rw [f1]; exact hml
  have hml2 : 0 < ((⟨s.now, w2⟩ : Chain).world K).lamports := by show 0 < (w2 _).lamports; rw [f2]; exact hml
  obtain ⟨i1, i2⟩ := runs_income (hr1.weaken fun _ _ h => ⟨h.1, h.2.2⟩) hre1 ((miningAt_congr f1).mpr hm) hml1 a1 hpl1
    (by rw [a2.2.2.1]; exact hidx) hp1' hroom1
  obtain ⟨j1, j2⟩ := runs_income (hr2.weaken fun _ _ h => ⟨h.1, h.2.2⟩) hre2 ((miningAt_congr f2).mpr hm) hml2 b1 hpl2
    (by rw [b2.2.2.1]; exact hidx) hp2' hroom2
  refine ⟨i1, j1, ?_⟩
  have key : totalIn env (incomeBy env P.key m) ⟨s.now, w2⟩ es' ≤ totalIn env (incomeBy env P.key m) ⟨s.now, w1⟩ es := by
    refine runs_lockstep (P := P.key) (δ := fun x => - c x) (J := fun _ _ => True) (fun _ _ => rfl)
      (fun _ _ _ _ => trivial) ?_
      (hr2.weaken fun _ _ h => ⟨h.1, h.2.1⟩) (hr1.weaken fun _ _ h => ⟨h.1, h.2.1⟩) hal.symm trivial rfl (reachable_wf hre2)
      (reachable_wf hre1) b1 a1 hpl2 hpl1 (SameSchedule.budget ⟨rfl, rfl, rfl⟩ b2 a2) ?_
    · intro t u e es x y _ hnow wt wu v1 v2 c1 c2 px py sch hd hal
      refine income_ge hnow wu v2 c2.1 hal px py sch hd ?_
      have := hδ (midnight t.now)
      omega
    · intro x hx
      have := hap x hx
      dsimp only
      omega
  rw [i2, j2, a2.2.2.2, b2.2.2.2]
  omega

end

section Examples
open Demo

/-- After `orderlyStory`: the last distribution has become visible. -/
def beforeChoice : Chain := (orderlyRun 100 (vaultOf 100 101) s0 (orderlyStory ++ [fill 100 900 (day0 + 30 * DAY)])).getD s0

/-- A small stake of user 120, or a larger and longer one. -/
def small : Event := deposit 100 120 100 .flex 120
def large : Event := deposit 100 120 5000 .sixMonths 120

def choiceAccs : List AccountInfo := [W 100, W (mine 120 100), S 110, W (mine 120 100)]
def choiceAccs' : List AccountInfo := [W 100, W (mine 120 100), S 110, W (mine 121 100)]

/-- What happens then. -/
def later : List Event :=
  [.tick DAY, distribute 100, .tick 10, deposit 100 121 700 .threeMonths 121, withdraw 100 121 100 121, .tick DAY,
    distribute 100, claim 100 121 131, .tick (10 * DAY), distribute 100]

/-- `C86_more_partial` applies: all its hypotheses hold for this choice. -/
example : ∃ w1 w2 r1 r2 s1 s2, Genesis Demo.env s0 ∧
    (∃ es0, RunsWith Demo.env (Orderly Demo.env 100 (vaultOf 100 101)) s0 es0 beforeChoice) ∧
    exec Demo.env beforeChoice.now beforeChoice.world choiceAccs (.depositMining 100 .flex 120 120) = .ok (w1, r1) ∧
    exec Demo.env beforeChoice.now beforeChoice.world choiceAccs (.depositMining 5000 .sixMonths 120 120) = .ok (w2, r2) ∧
    AtLeast 100 .flex 5000 .sixMonths ∧
    RoomInPool Demo.env 100 beforeChoice small ∧ RoomInPool Demo.env 100 beforeChoice large ∧
    Orderly Demo.env 100 (vaultOf 100 101) beforeChoice small ∧ RoomInMining Demo.env (mine 120 100) beforeChoice .sixMonths ∧
    Alike Demo.env SameEvent ⟨beforeChoice.now, w1⟩ ⟨beforeChoice.now, w2⟩ later later ∧
    RunsWith Demo.env (fun s e => Orderly Demo.env 100 (vaultOf 100 101) s e ∧ RoomInPool Demo.env 100 s e ∧
      Spares (mine 120 100) e) ⟨beforeChoice.now, w1⟩ later s1 ∧
    RunsWith Demo.env (fun s e => CleanEvent Demo.env s e ∧ RoomInPool Demo.env 100 s e ∧
      Spares (mine 120 100) e) ⟨beforeChoice.now, w2⟩ later s2 ∧ s1.now < 2 ^ 64 ∧
    hasPool s1.world 100 (fun p => decide (p.cumulative.length < Demo.env.caps.index)) = true ∧
    hasPool s2.world 100 (fun p => decide (p.cumulative.length < Demo.env.caps.index)) = true ∧
    0 < (beforeChoice.world 100).lamports ∧ 0 < (beforeChoice.world (mine 120 100)).lamports ∧
    hasPool beforeChoice.world 100 (fun p => decide (Demo.env.findVault 100 p.rewardMint = some (vaultOf 100 101, p.bump))) =
      true := by
  obtain ⟨w1, w2, r1, r2, h1, h2, h3, -, h4, h5⟩ := two_histories (s := beforeChoice) (es := later) (accs := choiceAccs)
    (i := .depositMining 100 .flex 120 120) (j := .depositMining 5000 .sixMonths 120 120)
    (tidyB_sound (P := 100) (V := vaultOf 100 101) (k := mine 120 100)) (cleanB_sound (P := 100) (k := mine 120 100))
    tidyB_ok cleanB_ok (by decide +kernel) (by decide +kernel) (by decide +kernel) (by decide +kernel)
  exact ⟨w1, w2, r1, r2, _, _, s0_genesis, ⟨_, orderlyRun_eq (by decide +kernel)⟩, h1, h2,
    ⟨by decide, 1, 5, 4, 180, rfl, rfl, by decide, by decide⟩, roomInPoolB_sound (by decide +kernel),
    roomInPoolB_sound (by decide +kernel), (orderlyB_sound (by decide +kernel)).2, roomInMiningB_sound (by decide +kernel),
    h3, h4, h5, by decide +kernel, by decide +kernel, by decide +kernel, by decide +kernel, by decide +kernel,
    by decide +kernel⟩

/-- `C87_others_partial` applies to user 122, who does nothing. -/
def threeBefore : List Event :=
  [initPool 100, initMining 100 120, initMining 100 121, initMining 100 122, deposit 100 122 800 .flex 122,
    deposit 100 121 500 .threeMonths 121, fill 100 10000 (day0 + 20 * DAY), distribute 100, .tick DAY]

def beforeThree : Chain := (run s0 threeBefore).getD s0

example : ∃ w1 w2 r1 r2 s1 s2, Reachable Demo.env beforeThree ∧
    exec Demo.env beforeThree.now beforeThree.world choiceAccs' (.depositMining 100 .flex 120 121) = .ok (w1, r1) ∧
    exec Demo.env beforeThree.now beforeThree.world choiceAccs' (.depositMining 5000 .oneYear 120 121) = .ok (w2, r2) ∧
    AtLeast 100 .flex 5000 .oneYear ∧
    RoomInPool Demo.env 100 beforeThree (deposit 100 120 100 .flex 121) ∧
    RoomInPool Demo.env 100 beforeThree (deposit 100 120 5000 .oneYear 121) ∧
    Alike Demo.env SameEvent ⟨beforeThree.now, w1⟩ ⟨beforeThree.now, w2⟩ later later ∧
    RunsWith Demo.env (fun s e => CleanEvent Demo.env s e ∧ RoomInPool Demo.env 100 s e ∧
      Spares (mine 122 100) e) ⟨beforeThree.now, w1⟩ later s1 ∧
    RunsWith Demo.env (fun s e => CleanEvent Demo.env s e ∧ RoomInPool Demo.env 100 s e ∧
      Spares (mine 122 100) e) ⟨beforeThree.now, w2⟩ later s2 ∧
    hasPool s1.world 100 (fun p => decide (p.cumulative.length < Demo.env.caps.index)) = true ∧
    hasPool s2.world 100 (fun p => decide (p.cumulative.length < Demo.env.caps.index)) = true ∧
    0 < (beforeThree.world 100).lamports ∧ 0 < (beforeThree.world (mine 122 100)).lamports ∧
    hasPool beforeThree.world 100 (fun p => hasMining beforeThree.world (mine 122 100) (fun m =>
      decide (m.index ≤ p.index ∧ 0 < earningOn m (midnight beforeThree.now)))) = true := by
  obtain ⟨w1, w2, r1, r2, h1, h2, h3, -, h4, h5⟩ := two_histories (s := beforeThree) (es := later) (accs := choiceAccs')
    (i := .depositMining 100 .flex 120 121) (j := .depositMining 5000 .oneYear 120 121)
    (cleanB_sound (P := 100) (k := mine 122 100)) (cleanB_sound (P := 100) (k := mine 122 100))
    cleanB_ok cleanB_ok (by decide +kernel) (by decide +kernel) (by decide +kernel) (by decide +kernel)
  exact ⟨w1, w2, r1, r2, _, _, after_reachable (by decide +kernel), h1, h2,
    ⟨by decide, 1, 5, 6, 365, rfl, rfl, by decide, by decide⟩, roomInPoolB_sound (by decide +kernel),
    roomInPoolB_sound (by decide +kernel), h3, h4, h5, by decide +kernel, by decide +kernel, by decide +kernel,
    by decide +kernel, by decide +kernel⟩

/-- C86 is false for deposits that are delegated: they count for the staker and for the delegate, so the pool's total grows
by more than the staker's part.  User 120, the only staker, with 1000 tokens, puts 1000 more on a delegate instead of 1 more:
the first distribution pays them more than 300 tokens less. -/
def delegatedBefore : List Event :=
  [initPool 100, initMining 100 120, initMining 100 121, deposit 100 120 1000 .flex 120, fill 100 10000 (day0 + 10 * DAY)]

theorem C86_delegated_false : ∃ s1 s2 p1 p2 m1 m2,
    RunsWith Demo.env (CleanEvent Demo.env) s0 (delegatedBefore ++ [deposit 100 120 1 .flex 121, distribute 100]) s1 ∧
    RunsWith Demo.env (CleanEvent Demo.env) s0 (delegatedBefore ++ [deposit 100 120 1000 .flex 121, distribute 100]) s2 ∧
    PoolAt Demo.env s1.world 100 p1 ∧ PoolAt Demo.env s2.world 100 p2 ∧ MiningAt Demo.env s1.world (mine 120 100) m1 ∧
    MiningAt Demo.env s2.world (mine 120 100) m2 ∧
    owed m2 p2.cumulative + 10 ^ 16 * 300 < owed m1 p1.cumulative := by
  let s1 := (run s0 (delegatedBefore ++ [deposit 100 120 1 .flex 121, distribute 100])).getD s0
  let s2 := (run s0 (delegatedBefore ++ [deposit 100 120 1000 .flex 121, distribute 100])).getD s0
  have h : hasPool s1.world 100 (fun p1 => hasPool s2.world 100 (fun p2 => hasMining s1.world (mine 120 100) (fun m1 =>
      hasMining s2.world (mine 120 100) (fun m2 =>
        decide (owed m2 p2.cumulative + 10 ^ 16 * 300 < owed m1 p1.cumulative))))) = true := by decide +kernel
  obtain ⟨p1, hp1, h⟩ := hasPool_sound h
  obtain ⟨p2, hp2, h⟩ := hasPool_sound h
  obtain ⟨m1, hm1, h⟩ := hasMining_sound h
  obtain ⟨m2, hm2, h⟩ := hasMining_sound h
  exact ⟨s1, s2, p1, p2, m1, m2, run_sound (run_eq (by decide +kernel)), run_sound (run_eq (by decide +kernel)), hp1, hp2,
    hm1, hm2, of_decide_eq_true h⟩

/-- The pool's table of expirations is full; among its dates is the one `l` from now. -/
def tableFull (l : LockupPeriod) : List Event :=
  nearlyFull ++ [deposit 100 126 10 l 126, fill 100 1000000 (day0 + 500 * DAY)]

/-- After half a year the pool distributes. -/
def halfYearLater : List Event := [.tick (190 * DAY), distribute 100]

/-- User 127 chooses between three and six months. -/
def shorter : Event := deposit 100 127 10 .threeMonths 127
def longer : Event := deposit 100 127 10 .sixMonths 127

def fullTableB (f : Chain → Chain → Bool) (s : Chain) : Bool :=
  allPass okEvent s (shorter :: halfYearLater) && allPass okEvent s (longer :: halfYearLater) &&
    f (endOf s (shorter :: halfYearLater)) (endOf s (longer :: halfYearLater))

theorem fullTableB_sound {l : LockupPeriod} {f : Chain → Chain → Bool}
    (h : (match run s0 (tableFull l) with | some s => fullTableB f s | none => false) = true) :
    ∃ s s1 s2, Reachable Demo.env s ∧ RunsWith Demo.env (CleanEvent Demo.env) s (shorter :: halfYearLater) s1 ∧
      RunsWith Demo.env (CleanEvent Demo.env) s (longer :: halfYearLater) s2 ∧ f s1 s2 = true := by
  split at h
  · rename_i s hs
    simp only [fullTableB, Bool.and_eq_true] at h
    exact ⟨s, _, _, reachable hs, allPass_sound (fun _ _ h => okEvent_sound h) h.1.1,
      allPass_sound (fun _ _ h => okEvent_sound h) h.1.2, h.2⟩
  · cases h

/-- C86 is false with a full table: if the pool has no place for the date of the longer stake, that stake counts in the
pool's total for ever with its multiplier, and after its end it earns less than the shorter one, here by more than a token. -/
theorem C86_full_table_false : ∃ s s1 s2 p1 p2 m1 m2, Reachable Demo.env s ∧ AtLeast 10 .threeMonths 10 .sixMonths ∧
    RunsWith Demo.env (CleanEvent Demo.env) s (shorter :: halfYearLater) s1 ∧
    RunsWith Demo.env (CleanEvent Demo.env) s (longer :: halfYearLater) s2 ∧
    PoolAt Demo.env s1.world 100 p1 ∧ PoolAt Demo.env s2.world 100 p2 ∧ MiningAt Demo.env s1.world (mine 127 100) m1 ∧
    MiningAt Demo.env s2.world (mine 127 100) m2 ∧
    owed m2 p2.cumulative + 10 ^ 16 < owed m1 p1.cumulative := by
  obtain ⟨s, s1, s2, h1, h2, h3, h⟩ := fullTableB_sound (l := .threeMonths) (f := fun s1 s2 =>
    hasPool s1.world 100 (fun p1 => hasPool s2.world 100 (fun p2 => hasMining s1.world (mine 127 100) (fun m1 =>
      hasMining s2.world (mine 127 100) (fun m2 => decide (owed m2 p2.cumulative + 10 ^ 16 < owed m1 p1.cumulative))))))
    (by decide +kernel)
  obtain ⟨p1, hp1, h⟩ := hasPool_sound h
  obtain ⟨p2, hp2, h⟩ := hasPool_sound h
  obtain ⟨m1, hm1, h⟩ := hasMining_sound h
  obtain ⟨m2, hm2, h⟩ := hasMining_sound h
  exact ⟨s, s1, s2, p1, p2, m1, m2, h1, ⟨by decide, 2, 90, 4, 180, rfl, rfl, by decide, by decide⟩, h2, h3, hp1, hp2, hm1,
    hm2, of_decide_eq_true h⟩

/-- C87 is false with a full table: if the pool has no place for the date of the shorter stake, but has one for the longer,
the shorter stake counts in the total for ever with its multiplier, and another staker earns more after the longer one. -/
theorem C87_full_table_false : ∃ s s1 s2 p1 p2 m, Reachable Demo.env s ∧ AtLeast 10 .threeMonths 10 .sixMonths ∧
    RunsWith Demo.env (CleanEvent Demo.env) s (shorter :: halfYearLater) s1 ∧
    RunsWith Demo.env (CleanEvent Demo.env) s (longer :: halfYearLater) s2 ∧
    PoolAt Demo.env s1.world 100 p1 ∧ PoolAt Demo.env s2.world 100 p2 ∧ MiningAt Demo.env s1.world (mine 125 100) m ∧
    MiningAt Demo.env s2.world (mine 125 100) m ∧ owed m p1.cumulative < owed m p2.cumulative := by
  obtain ⟨s, s1, s2, h1, h2, h3, h⟩ := fullTableB_sound (l := .sixMonths) (f := fun s1 s2 =>
    hasPool s1.world 100 (fun p1 => hasPool s2.world 100 (fun p2 => hasMining s1.world (mine 125 100) (fun m1 =>
      hasMining s2.world (mine 125 100) (fun m2 => decide (m2 = m1 ∧ owed m1 p1.cumulative < owed m1 p2.cumulative))))))
    (by decide +kernel)
  obtain ⟨p1, hp1, h⟩ := hasPool_sound h
  obtain ⟨p2, hp2, h⟩ := hasPool_sound h
  obtain ⟨m1, hm1, h⟩ := hasMining_sound h
  obtain ⟨m2, hm2, h⟩ := hasMining_sound h
  obtain ⟨rfl, h⟩ := of_decide_eq_true h
  exact ⟨s, s1, s2, p1, p2, m2, h1, ⟨by decide, 2, 90, 4, 180, rfl, rfl, by decide, by decide⟩, h2, h3, hp1, hp2, hm1, hm2, h⟩

/-- In this example the larger stake earns more. -/
example : hasPool (endOf beforeChoice (small :: later)).world 100 (fun p1 =>
    hasPool (endOf beforeChoice (large :: later)).world 100 (fun p2 =>
    hasMining (endOf beforeChoice (small :: later)).world (mine 120 100) (fun m1 =>
    hasMining (endOf beforeChoice (large :: later)).world (mine 120 100) (fun m2 =>
      decide (owed m1 p1.cumulative < owed m2 p2.cumulative))))) = true := by decide +kernel

end Examples

end Verif
