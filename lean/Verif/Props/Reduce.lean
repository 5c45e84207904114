import Verif.Lemmas.Reduce
import Verif.Lemmas.DemoIncentive
import Verif.Props.Incentive
/-!
C92, C93: taking stake away never earns the staker more, and never lets others earn less.  C86, C87 compared with not staking.
-/

namespace Verif

open Spec

section
variable {env : Env}

/-- C92: let a history (orderly for the pool: see `Orderly`) be continued in two ways.  The first begins with a withdrawal or a
slash of stake of a mining that is not delegated; the second with one that takes no more, or with nothing at all.
They go on with the same events (only what other programs do may differ), the mining doing nothing.  Then the mining is in the
end owed at least as much in the second history as in the first, except for roundings: 1/10^16 token per unit of its stake and
distribution.  Missing for the full property: delegated stake (see `C92_delegated_false`), histories that are not orderly, full tables. -/
theorem C92_less_partial (hi : env.PdaInjective) {s0 s s1 s2 : Chain} {es0 es es' : List Event} {accs : List AccountInfo}
    {i : Ix} {e : Event} {P M V : Key} {w1 : World} {r1 : Option Nat} {p p1 p2 : Pool} (hg : Genesis env s0)
    (hr0 : RunsWith env (Orderly env P V) s0 es0 s) (hp : PoolAt env s.world P p)
    (hV : env.findVault P p.rewardMint = some (V, p.bump)) (hpl : 0 < (s.world P).lamports)
    (hml : 0 < (s.world M).lamports) (hs : RealSigners accs) (hv : e.Valid env s)
    (hi1 : takesStake i = true) (hiP : poolArg accs i = some P) (hiM : OnlyFrom M (.ix accs i))
    (h1 : exec env s.now s.world accs i = .ok (w1, r1)) (hl : TakesLess P s accs i e) (hlM : OnlyFrom M e)
    (hord : Orderly env P V s (.ix accs i))
    (hr1 : RunsWith env (fun s e => Orderly env P V s e ∧ RoomInPool env P s e ∧ Spares M e) ⟨s.now, w1⟩ es s1)
    (hr2 : RunsWith env (fun s e => CleanEvent env s e ∧ RoomInPool env P s e ∧ Spares M e) (s.apply env e) es' s2)
    (hal : Alike env SameEvent ⟨s.now, w1⟩ (s.apply env e) es es') (hn : s1.now < 2 ^ 64)
    (hp1' : PoolAt env s1.world P p1) (hp2' : PoolAt env s2.world P p2)
    (hroom1 : p1.cumulative.length < env.caps.index) (hroom2 : p2.cumulative.length < env.caps.index) :
    ∃ m1 m2, MiningAt env s1.world M m1 ∧ MiningAt env s2.world M m2 ∧
      owed m1 p1.cumulative ≤ owed m2 p2.cumulative + totalIn env (takesPart env P m2) (s.apply env e) es' := by
  have hre : Reachable env s := ⟨s0, es0, hg, hr0.weaken fun _ _ h => h.clean⟩
  have hw := reachable_wf hre
  obtain ⟨M', m, g, a1, hm, a3, ⟨-, ⟨q1, b1, b2, b3, b4⟩, b5⟩, m1, a5, a6, a7, a8⟩ := taken_exec hw hs hi1 hiP hp h1
  obtain ⟨c1, c2⟩ := hiM
  rw [a1] at c1; cases c1
  obtain ⟨g', d1, ⟨d2, ⟨q2, f1, f2, f3, f4⟩, f5⟩, hce, d4⟩ := taken_event hw hp hv hl a3
  obtain ⟨m2, k1, k2, k3, k4⟩ := d4 M m hm hlM
  have st1 : s.apply env (.ix accs i) = ⟨s.now, w1⟩ := apply_ix_ok h1
  have hro : RunsWith env (Orderly env P V) s0 (es0 ++ [.ix accs i]) ⟨s.now, w1⟩ :=
    hr0.append (.cons hs hord (by rw [st1]; exact .nil _))
  have hh := (poolAt_good hw hp).ok.history
  have hmo := (miningAt_ok hw hm.1).1
  have hidx : indexBefore p.cumulative s.now ≤ p.index :=
    Nat.le_trans (indexBefore_le_last hh _) (lastIndex_le (Nat.zero_le _) (poolAt_good hw hp).ok.index)
  have ci := credited_index hh hmo a8
  have hwt : ∀ x, midnight s.now ≤ x → weightOn m2 x = weightOn m1 x + (g x - g' x) := by
    intro x hx
    rw [k3 x hx, a7 x hx, a3.2 c2 x]; omega
  have hc0 : ∀ x, midnight s.now ≤ x → 0 ≤ g x - g' x := fun x hx => by have := d1 x hx; omega
  have hi2 : m2.index ≤ indexBefore p.cumulative s.now := by
    rcases k4 with k4 | rfl
    · exact Nat.le_of_eq (credited_index hh hmo k4).2
    · exact ci.1
  have hu : owed m1 q1.cumulative ≤ owed m2 q2.cumulative := by
    rw [b2.2.2.2, f2.2.2.2]
    rcases k4 with k4 | rfl
    · exact credited_owed_both hh hmo a8 k4 (by rw [k2, a6]) hc0 hwt
    · exact credited_owed_le hh hmo a8 a6 (takenOn_nonneg i) a7
  refine ⟨m1, m2, ?_⟩
  obtain ⟨z1, z2, z3⟩ := compare_more hi (r := 0) (c := fun x => g x - g' x) hg hro (hre.step hv hce) d2.symm b1 f1
    (by rw [b3.2.2.2.1, b3.2.2.2.2.1]; exact hV) (by rw [b5]; exact hpl) (by rw [f5]; exact hpl) (by rw [b5]; exact hml)
    (by rw [f5]; exact hml) a5 k1.1 (SameSchedule.budget ⟨rfl, rfl, rfl⟩ b2 f2)
    (fun x hx => by rw [b4 x hx, f4 x hx]; dsimp only; omega) hc0 hwt (by rw [k2, a6])
    (by rw [ci.2, b2.2.2.1]; exact hidx) (by rw [f2.2.2.1]; exact Nat.le_trans hi2 hidx) hu hr1 hr2 hal hn hp1' hp2'
    hroom1 hroom2
  exact ⟨z1, z2, z3⟩

/-- C93: let a history be continued in two ways, the first of which begins with a withdrawal or a slash for the pool
(delegated or not), the second with one that takes no more from the pool's total, of whatever mining, or with nothing, and let
them go on with the same events (only what other programs do may differ).  A mining that does nothing meanwhile is in the end owed
at least as much in the first history as in the second.  Missing for the full property: full tables (see
`C93_full_table_false`). -/
theorem C93_others_partial {s s1 s2 : Chain} {es es' : List Event} {accs : List AccountInfo} {i : Ix} {e : Event} {P K : Key}
    {w1 : World} {r1 : Option Nat} {p p1 p2 : Pool} {m : Mining} (hre : Reachable env s) (hp : PoolAt env s.world P p)
    (hpl : 0 < (s.world P).lamports) (hm : MiningAt env s.world K m) (hml : 0 < (s.world K).lamports)
    (hidx : m.index ≤ p.index) (hs : RealSigners accs) (hv : e.Valid env s) (hi1 : takesStake i = true)
    (hiP : poolArg accs i = some P) (h1 : exec env s.now s.world accs i = .ok (w1, r1)) (hl : TakesLess P s accs i e)
    (hk1 : Spares K (.ix accs i)) (hk2 : Spares K e)
    (hr1 : RunsWith env (fun s e => CleanEvent env s e ∧ RoomInPool env P s e ∧ Spares K e) ⟨s.now, w1⟩ es s1)
    (hr2 : RunsWith env (fun s e => CleanEvent env s e ∧ RoomInPool env P s e ∧ Spares K e) (s.apply env e) es' s2)
    (hal : Alike env SameEvent ⟨s.now, w1⟩ (s.apply env e) es es') (hp1' : PoolAt env s1.world P p1)
    (hp2' : PoolAt env s2.world P p2) (hroom1 : p1.cumulative.length < env.caps.index)
    (hroom2 : p2.cumulative.length < env.caps.index) :
    MiningAt env s1.world K m ∧ MiningAt env s2.world K m ∧ owed m p2.cumulative ≤ owed m p1.cumulative := by
  have hw := reachable_wf hre
  obtain ⟨M', m0, g, -, -, a3, ⟨-, ⟨q1, b1, b2, b3, b4⟩, b5⟩, -⟩ := taken_exec hw hs hi1 hiP hp h1
  obtain ⟨g', d1, ⟨d2, ⟨q2, f1, f2, f3, f4⟩, f5⟩, hce, -⟩ := taken_event hw hp hv hl a3
  have st1 : s.apply env (.ix accs i) = ⟨s.now, w1⟩ := apply_ix_ok h1
  have hci : CleanEvent env s (.ix accs i) := by cases i <;> first | exact trivial | cases hi1
  obtain ⟨x1, x2⟩ := spared_apply (env := env) (e := .ix accs i) hs hk1 hm hml
  obtain ⟨y1, y2⟩ := spared_apply hv hk2 hm hml
  rw [st1] at x1 x2
  have hre1 : Reachable env ⟨s.now, w1⟩ := by rw [← st1]; exact hre.step hs hci
  exact compare_others (c := fun x => g x - g' x) hre1 (hre.step hv hce) d2.symm b1 f1
    (by rw [b5]; exact hpl) (by rw [f5]; exact hpl) x2 y2 x1 y1 (SameSchedule.budget ⟨rfl, rfl, rfl⟩ b2 f2)
    (fun x hx => by rw [b4 x hx, f4 x hx]; dsimp only; omega) (fun x hx => by have := d1 x hx; omega)
    (by rw [b2.2.2.1]; exact hidx) (by rw [f2.2.2.1]; exact hidx) (by rw [b2.2.2.2, f2.2.2.2]; exact Nat.le_refl _) hr1 hr2
    hal hp1' hp2'
    hroom1 hroom2

/-- C86, compared with not staking: let a history (orderly for the pool) be continued in two ways, the second of which begins
with a deposit that is not delegated, and which go on with the same events (only what other programs do may differ), the mining
doing nothing.  Then the mining is in the end owed at least as much in the second history as in the first, except for
roundings: 1/10^16 token per unit of its stake and distribution, and a token for each of its expirations that the deposit processes and
one more.  Missing for the full property: as for `C86_more_partial`. -/
theorem C86_stake_partial (hi : env.PdaInjective) {s0 s s1 s2 : Chain} {es0 es es' : List Event} {accs rest : List AccountInfo}
    {P M A D : AccountInfo} {V : Key} {a : Nat} {l : LockupPeriod} {o d : Key} {w2 : World} {r2 : Option Nat}
    {p p1 p2 : Pool} (hg : Genesis env s0) (hr0 : RunsWith env (Orderly env P.key V) s0 es0 s)
    (hp : PoolAt env s.world P.key p) (hV : env.findVault P.key p.rewardMint = some (V, p.bump))
    (hpl : 0 < (s.world P.key).lamports) (hml : 0 < (s.world M.key).lamports)
    (hs : RealSigners accs) (hacc : accs = P :: M :: A :: D :: rest)
    (h2 : exec env s.now s.world accs (.depositMining a l o d) = .ok (w2, r2)) (hself : D.key = M.key)
    (hm : RoomInMining env M.key s l) (hp2 : RoomInPool env P.key s (.ix accs (.depositMining a l o d)))
    (hr1 : RunsWith env (fun s e => Orderly env P.key V s e ∧ RoomInPool env P.key s e ∧ Spares M.key e) s es s1)
    (hr2 : RunsWith env (fun s e => CleanEvent env s e ∧ RoomInPool env P.key s e ∧ Spares M.key e) ⟨s.now, w2⟩ es' s2)
    (hal : Alike env SameEvent s ⟨s.now, w2⟩ es es') (hn : s1.now < 2 ^ 64)
    (hp1' : PoolAt env s1.world P.key p1) (hp2' : PoolAt env s2.world P.key p2)
    (hroom1 : p1.cumulative.length < env.caps.index) (hroom2 : p2.cumulative.length < env.caps.index) :
    ∃ m1 m2, MiningAt env s1.world M.key m1 ∧ MiningAt env s2.world M.key m2 ∧ MiningAt env s.world M.key m1 ∧
      owed m1 p1.cumulative ≤ owed m2 p2.cumulative + totalIn env (takesPart env P.key m2) ⟨s.now, w2⟩ es' +
        10 ^ 16 * (expiredCount m1 (midnight s.now) + 1) := by
  have hre : Reachable env s := ⟨s0, es0, hg, hr0.weaken fun _ _ h => h.clean⟩
  have hw := reachable_wf hre
  obtain ⟨m, q2, m2, c, hmem, hq2, hm2, hbud, hap, hc0, hwt, hsfo, hcr, hlam, -⟩ := one_deposit hw hs hacc h2 hp2 hp
  have hwt := hwt hm
  have hap := hap hself
  have hh := (poolAt_good hw hp).ok.history
  have hmo := (miningAt_ok hw hmem.1).1
  have hidx : indexBefore p.cumulative s.now ≤ p.index :=
    Nat.le_trans (indexBefore_le_last hh _) (lastIndex_le (Nat.zero_le _) (poolAt_good hw hp).ok.index)
  have ci := credited_index hh hmo hcr
  have st2 : s.apply env (.ix accs (.depositMining a l o d)) = ⟨s.now, w2⟩ := apply_ix_ok h2
  have hre2 : Reachable env ⟨s.now, w2⟩ := by rw [← st2]; exact hre.step hs trivial
  have hu : owed m p.cumulative ≤ owed m2 q2.cumulative + 10 ^ 16 * (expiredCount m (midnight s.now) + 1) := by
    rw [hbud.2.2.2]
    obtain ⟨x, g1, g2, g3⟩ := hcr
    obtain ⟨-, f2, f3, -, f5, f6⟩ := refresh_owed hh hmo g1
    have : owed x p.cumulative ≤ owed m2 p.cumulative := by
      refine owed_le_now hh (g3.trans f3) g3.symm g2 fun y hy => ?_
      rw [f6 y (by rw [bod_eq_midnight]; exact hy)]
      have e1 := hwt y hy
      have e2 := hc0 y hy
      simp only [earningOn, weightOn] at *
      omega
    rw [bod_eq_midnight] at f2
    omega
  refine ⟨m, m2, ?_⟩
  obtain ⟨z1, z2, z3⟩ := compare_more hi (r := 10 ^ 16 * (expiredCount m (midnight s.now) + 1)) (c := c) hg hr0 hre2 rfl hp hq2
    hV hpl (by rw [hlam]; exact hpl) hml (by rw [hlam]; exact hml) hmem hm2 (SameSchedule.budget ⟨rfl, rfl, rfl⟩ ⟨rfl, rfl, rfl, rfl⟩ hbud)
    hap hc0 hwt hsfo (Nat.le_trans ci.1 hidx) (by rw [hbud.2.2.1, ci.2]; exact hidx) hu hr1 hr2 hal hn hp1' hp2' hroom1 hroom2
  exact ⟨z1, z2, hmem.1, z3⟩

/-- C87, compared with not staking: let a history be continued in two ways, the second of which begins with a deposit
(delegated or not), and which go on with the same events (only what other programs do may differ).  A mining that does nothing
meanwhile, other than the one of the deposit and its delegate, is in the end owed at most as much in the second history as
in the first. -/
theorem C87_stake_partial {s s1 s2 : Chain} {es es' : List Event} {accs rest : List AccountInfo} {P M A D : AccountInfo}
    {K : Key} {a : Nat} {l : LockupPeriod} {o d : Key} {w2 : World} {r2 : Option Nat} {p p1 p2 : Pool}
    {m : Mining} (hre : Reachable env s) (hp : PoolAt env s.world P.key p) (hpl : 0 < (s.world P.key).lamports)
    (hm : MiningAt env s.world K m) (hml : 0 < (s.world K).lamports) (hidx : m.index ≤ p.index)
    (hKM : K ≠ M.key) (hKD : K ≠ D.key) (hs : RealSigners accs) (hacc : accs = P :: M :: A :: D :: rest)
    (h2 : exec env s.now s.world accs (.depositMining a l o d) = .ok (w2, r2))
    (hp2 : RoomInPool env P.key s (.ix accs (.depositMining a l o d)))
    (hr1 : RunsWith env (fun s e => CleanEvent env s e ∧ RoomInPool env P.key s e ∧ Spares K e) s es s1)
    (hr2 : RunsWith env (fun s e => CleanEvent env s e ∧ RoomInPool env P.key s e ∧ Spares K e) ⟨s.now, w2⟩ es' s2)
    (hal : Alike env SameEvent s ⟨s.now, w2⟩ es es') (hp1' : PoolAt env s1.world P.key p1)
    (hp2' : PoolAt env s2.world P.key p2) (hroom1 : p1.cumulative.length < env.caps.index)
    (hroom2 : p2.cumulative.length < env.caps.index) :
    MiningAt env s1.world K m ∧ MiningAt env s2.world K m ∧ owed m p2.cumulative ≤ owed m p1.cumulative := by
  have hw := reachable_wf hre
  obtain ⟨m0, q2, m2, c, -, hq2, -, hbud, -, -, -, -, -, hlam, hfr, c', hap, hc0⟩ := one_deposit hw hs hacc h2 hp2 hp
  have hKP : K ≠ P.key := by
    rintro rfl
    have := hm.2; rw [hp.2] at this; cases this
  have f2 := hfr K hKP hKM hKD
  have st2 : s.apply env (.ix accs (.depositMining a l o d)) = ⟨s.now, w2⟩ := apply_ix_ok h2
  have hre2 : Reachable env ⟨s.now, w2⟩ := by rw [← st2]; exact hre.step hs trivial
  exact compare_others (c := c') hre hre2 rfl hp hq2 hpl (by rw [hlam]; exact hpl) hml (by rw [hlam]; exact hml) hm
    ((miningAt_congr f2).mpr hm) (SameSchedule.budget ⟨rfl, rfl, rfl⟩ ⟨rfl, rfl, rfl, rfl⟩ hbud) hap hc0 hidx
    (by rw [hbud.2.2.1]; exact hidx) (by rw [hbud.2.2.2]; exact Nat.le_refl _) hr1 hr2 hal hp1' hp2' hroom1 hroom2

end

section Examples
open Demo

/-- Two histories with the same events after an instruction and another event. -/
theorem two_continuations {c c' : Chain → Event → Bool} {C C' : Chain → Event → Prop}
    (hC : ∀ s e, c s e = true → e.Valid Demo.env s ∧ C s e) (hC' : ∀ s e, c' s e = true → e.Valid Demo.env s ∧ C' s e)
    (hok : ∀ s e, c s e = true → okEvent s e = true) (hok' : ∀ s e, c' s e = true → okEvent s e = true) {s : Chain}
    {accs : List AccountInfo} {i : Ix} {e : Event} {es : List Event} (o1 : okEvent s (.ix accs i) = true)
    (c1 : allPass c (s.apply Demo.env (.ix accs i)) es = true) (c2 : allPass c' (s.apply Demo.env e) es = true) :
    ∃ w1 r1, exec Demo.env s.now s.world accs i = .ok (w1, r1) ∧
      Alike Demo.env SameEvent ⟨s.now, w1⟩ (s.apply Demo.env e) es es ∧
      RunsWith Demo.env C ⟨s.now, w1⟩ es (endOf s (.ix accs i :: es)) ∧
      RunsWith Demo.env C' (s.apply Demo.env e) es (endOf s (e :: es)) := by
  obtain ⟨r1, h1⟩ := exec_of_ok o1
  refine ⟨_, r1, h1, ?_, ?_, allPass_sound hC' c2⟩
  · rw [← apply_eta h1]; exact allPass_alike hok hok' c1 c2
  · rw [← apply_eta h1]; exact allPass_sound hC c1

/-- Two histories with the same events, without and with an instruction before. -/
theorem without_and_with {c c' : Chain → Event → Bool} {C C' : Chain → Event → Prop}
    (hC : ∀ s e, c s e = true → e.Valid Demo.env s ∧ C s e) (hC' : ∀ s e, c' s e = true → e.Valid Demo.env s ∧ C' s e)
    (hok : ∀ s e, c s e = true → okEvent s e = true) (hok' : ∀ s e, c' s e = true → okEvent s e = true) {s : Chain}
    {accs : List AccountInfo} {i : Ix} {es : List Event} (o1 : okEvent s (.ix accs i) = true)
    (c1 : allPass c s es = true) (c2 : allPass c' (s.apply Demo.env (.ix accs i)) es = true) :
    ∃ w2 r2, exec Demo.env s.now s.world accs i = .ok (w2, r2) ∧ Alike Demo.env SameEvent s ⟨s.now, w2⟩ es es ∧
      RunsWith Demo.env C s es (endOf s es) ∧ RunsWith Demo.env C' ⟨s.now, w2⟩ es (endOf s (.ix accs i :: es)) := by
  obtain ⟨r2, h2⟩ := exec_of_ok o1
  refine ⟨_, r2, h2, ?_, allPass_sound hC c1, ?_⟩
  · rw [← apply_eta h2]; exact allPass_alike hok hok' c1 c2
  · rw [← apply_eta h2]; exact allPass_sound hC' c2

/-- `C86_stake_partial` applies. -/
example : ∃ w2 r2 s1 s2, Genesis Demo.env s0 ∧
    (∃ es0, RunsWith Demo.env (Orderly Demo.env 100 (vaultOf 100 101)) s0 es0 beforeChoice) ∧
    exec Demo.env beforeChoice.now beforeChoice.world choiceAccs (.depositMining 5000 .sixMonths 120 120) = .ok (w2, r2) ∧
    RoomInPool Demo.env 100 beforeChoice large ∧ RoomInMining Demo.env (mine 120 100) beforeChoice .sixMonths ∧
    Alike Demo.env SameEvent beforeChoice ⟨beforeChoice.now, w2⟩ later later ∧
    RunsWith Demo.env (fun s e => Orderly Demo.env 100 (vaultOf 100 101) s e ∧ RoomInPool Demo.env 100 s e ∧
      Spares (mine 120 100) e) beforeChoice later s1 ∧
    RunsWith Demo.env (fun s e => CleanEvent Demo.env s e ∧ RoomInPool Demo.env 100 s e ∧
      Spares (mine 120 100) e) ⟨beforeChoice.now, w2⟩ later s2 ∧ s1.now < 2 ^ 64 ∧
    hasPool s1.world 100 (fun p => decide (p.cumulative.length < Demo.env.caps.index)) = true ∧
    hasPool s2.world 100 (fun p => decide (p.cumulative.length < Demo.env.caps.index)) = true ∧
    hasPool s1.world 100 (fun p1 => hasPool s2.world 100 (fun p2 => hasMining s1.world (mine 120 100) (fun m1 =>
      hasMining s2.world (mine 120 100) (fun m2 => decide (owed m1 p1.cumulative < owed m2 p2.cumulative))))) = true := by
  obtain ⟨w2, r2, h2, h3, h4, h5⟩ := without_and_with (s := beforeChoice) (es := later) (accs := choiceAccs)
    (i := .depositMining 5000 .sixMonths 120 120)
    (tidyB_sound (P := 100) (V := vaultOf 100 101) (k := mine 120 100)) (cleanB_sound (P := 100) (k := mine 120 100))
    tidyB_ok cleanB_ok (by decide +kernel) (by decide +kernel) (by decide +kernel)
  exact ⟨w2, r2, _, _, s0_genesis, ⟨_, orderlyRun_eq (by decide +kernel)⟩, h2, roomInPoolB_sound (by decide +kernel),
    roomInMiningB_sound (by decide +kernel), h3, h4, h5, by decide +kernel, by decide +kernel, by decide +kernel,
    by decide +kernel⟩

/-- `C87_stake_partial` applies to user 122. -/
example : ∃ w2 r2 s1 s2, Reachable Demo.env beforeThree ∧
    exec Demo.env beforeThree.now beforeThree.world choiceAccs' (.depositMining 5000 .oneYear 120 121) = .ok (w2, r2) ∧
    RoomInPool Demo.env 100 beforeThree (deposit 100 120 5000 .oneYear 121) ∧
    Alike Demo.env SameEvent beforeThree ⟨beforeThree.now, w2⟩ later later ∧
    RunsWith Demo.env (fun s e => CleanEvent Demo.env s e ∧ RoomInPool Demo.env 100 s e ∧
      Spares (mine 122 100) e) beforeThree later s1 ∧
    RunsWith Demo.env (fun s e => CleanEvent Demo.env s e ∧ RoomInPool Demo.env 100 s e ∧
      Spares (mine 122 100) e) ⟨beforeThree.now, w2⟩ later s2 ∧
    hasPool s1.world 100 (fun p => decide (p.cumulative.length < Demo.env.caps.index)) = true ∧
    hasPool s2.world 100 (fun p => decide (p.cumulative.length < Demo.env.caps.index)) = true ∧
    hasPool s1.world 100 (fun p1 => hasPool s2.world 100 (fun p2 => hasMining s1.world (mine 122 100) (fun m =>
      decide (owed m p2.cumulative < owed m p1.cumulative)))) = true := by
  obtain ⟨w2, r2, h2, h3, h4, h5⟩ := without_and_with (s := beforeThree) (es := later) (accs := choiceAccs')
    (i := .depositMining 5000 .oneYear 120 121)
    (cleanB_sound (P := 100) (k := mine 122 100)) (cleanB_sound (P := 100) (k := mine 122 100))
    cleanB_ok cleanB_ok (by decide +kernel) (by decide +kernel) (by decide +kernel)
  exact ⟨w2, r2, _, _, after_reachable (by decide +kernel), h2, roomInPoolB_sound (by decide +kernel), h3, h4, h5,
    by decide +kernel, by decide +kernel, by decide +kernel⟩

theorem takesLess_of {P : Key} {s : Chain} {accs accs' : List AccountInfo} {i j : Ix} (h1 : takesStake j = true)
    (h2 : poolArg accs' j = some P) (h3 : ¬ Delegated accs i) (h4 : ¬ Delegated accs' j)
    (h5 : ∀ x, takenOn j x ≤ takenOn i x) : TakesLess P s accs i (.ix accs' j) := by
  refine ⟨h1, h2, fun f g hf hg x _ => ?_⟩
  rw [hf.2 h3, hg.2 h4]; exact h5 x

theorem takesLess_delegated {P : Key} {s : Chain} {accs accs' : List AccountInfo} {i j : Ix} (h1 : takesStake j = true)
    (h2 : poolArg accs' j = some P) (h3 : Delegated accs i) (h5 : ∀ x, takenOn j x ≤ takenOn i x) :
    TakesLess P s accs i (.ix accs' j) := by
  refine ⟨h1, h2, fun f g hf hg x _ => ?_⟩
  have := h5 x
  have := takenOn_nonneg i x
  rw [hf.1 h3]
  by_cases h4 : Delegated accs' j
  · rw [hg.1 h4]; omega
  · rw [hg.2 h4]; omega

theorem withdraw_undelegated {P M A : AccountInfo} {a : Nat} {o d : Key} :
    ¬ Delegated [P, M, A, M] (.withdrawMining a o d) := by
  rintro ⟨D, h, h'⟩; exact h' h

theorem slash_undelegated {accs : List AccountInfo} {o : Key} {n mu : Nat} {ex : Option Nat} :
    ¬ Delegated accs (.slash o n mu ex) := by
  rintro ⟨D, h, h'⟩; cases h

/-- The end of `later`, as compared with a withdrawal of 300. -/
def lessB (e : Event) : Bool :=
  allPass (cleanB 100 (mine 120 100)) (beforeChoice.apply Demo.env e) later &&
  hasPool (endOf beforeChoice (e :: later)).world 100 (fun p2 => decide (p2.cumulative.length < Demo.env.caps.index)) &&
  hasPool (endOf beforeChoice (withdraw 100 120 300 120 :: later)).world 100 (fun p1 =>
    hasPool (endOf beforeChoice (e :: later)).world 100 (fun p2 =>
    hasMining (endOf beforeChoice (withdraw 100 120 300 120 :: later)).world (mine 120 100) (fun m1 =>
    hasMining (endOf beforeChoice (e :: later)).world (mine 120 100) (fun m2 =>
      decide (owed m1 p1.cumulative < owed m2 p2.cumulative)))))

/-- The hypotheses of `C92_less_partial` for a withdrawal of 300 tokens by user 120, compared with the event `e`; and the
withdrawal costs something. -/
def LessCase (e : Event) : Prop :=
  ∃w1 r1 s1 s2, Genesis Demo.env s0 ∧
    (∃ es0, RunsWith Demo.env (Orderly Demo.env 100 (vaultOf 100 101)) s0 es0 beforeChoice) ∧
    exec Demo.env beforeChoice.now beforeChoice.world choiceAccs (.withdrawMining 300 120 120) = .ok (w1, r1) ∧
    TakesLess 100 beforeChoice choiceAccs (.withdrawMining 300 120 120) e ∧ OnlyFrom (mine 120 100) e ∧
    OnlyFrom (mine 120 100) (withdraw 100 120 300 120) ∧ e.Valid Demo.env beforeChoice ∧
    Orderly Demo.env 100 (vaultOf 100 101) beforeChoice (withdraw 100 120 300 120) ∧
    Alike Demo.env SameEvent ⟨beforeChoice.now, w1⟩ (beforeChoice.apply Demo.env e) later later ∧
    RunsWith Demo.env (fun s e => Orderly Demo.env 100 (vaultOf 100 101) s e ∧ RoomInPool Demo.env 100 s e ∧
      Spares (mine 120 100) e) ⟨beforeChoice.now, w1⟩ later s1 ∧
    RunsWith Demo.env (fun s e => CleanEvent Demo.env s e ∧ RoomInPool Demo.env 100 s e ∧
      Spares (mine 120 100) e) (beforeChoice.apply Demo.env e) later s2 ∧ s1.now < 2 ^ 64 ∧
    hasPool s1.world 100 (fun p => decide (p.cumulative.length < Demo.env.caps.index)) = true ∧
    hasPool s2.world 100 (fun p => decide (p.cumulative.length < Demo.env.caps.index)) = true ∧
    hasPool s1.world 100 (fun p1 => hasPool s2.world 100 (fun p2 => hasMining s1.world (mine 120 100) (fun m1 =>
      hasMining s2.world (mine 120 100) (fun m2 => decide (owed m1 p1.cumulative < owed m2 p2.cumulative))))) = true

theorem lessCase {e : Event} (k1 : OnlyFrom (mine 120 100) e) (k2 : e.Valid Demo.env beforeChoice)
    (k3 : TakesLess 100 beforeChoice choiceAccs (.withdrawMining 300 120 120) e) (k4 : lessB e = true) : LessCase e := by
  simp only [lessB, Bool.and_eq_true] at k4
  obtain ⟨w1, r1, h1, h3, h4, h5⟩ := two_continuations (s := beforeChoice) (es := later) (accs := choiceAccs)
    (i := .withdrawMining 300 120 120) (e := e)
    (tidyB_sound (P := 100) (V := vaultOf 100 101) (k := mine 120 100)) (cleanB_sound (P := 100) (k := mine 120 100))
    tidyB_ok cleanB_ok (by decide +kernel) (by decide +kernel) k4.1.1
  exact ⟨w1, r1, _, _, s0_genesis, ⟨_, orderlyRun_eq (by decide +kernel)⟩, h1, k3, k1, ⟨rfl, withdraw_undelegated⟩, k2,
    (orderlyB_sound (by decide +kernel)).2, h3, h4, h5, by decide +kernel, by decide +kernel, k4.1.2, k4.2⟩

/-- `C92_less_partial` applies: instead of the withdrawal there is a slash of 100, or nothing happens. -/
example : LessCase (slash 100 120 100 100 none) :=
  lessCase ⟨rfl, slash_undelegated⟩ (okEvent_sound (by decide +kernel)).1
    (takesLess_of rfl rfl withdraw_undelegated slash_undelegated fun x => by show (100 : Int) ≤ 300; decide)
    (by decide +kernel)

example : LessCase (.tick 0) := lessCase trivial trivial rfl (by decide +kernel)

/-- User 120 delegates to 121; user 122 does nothing. -/
def beforeTaking : Chain := (run s0 (threeBefore ++ [deposit 100 120 1000 .flex 121])).getD s0

/-- `C93_others_partial` applies to user 122: user 120 withdraws 600 delegated tokens, or 121 is slashed by 100. -/
example : ∃ w1 r1 s1 s2, Reachable Demo.env beforeTaking ∧
    exec Demo.env beforeTaking.now beforeTaking.world choiceAccs' (.withdrawMining 600 120 121) = .ok (w1, r1) ∧
    TakesLess 100 beforeTaking choiceAccs' (.withdrawMining 600 120 121) (slash 100 121 100 100 none) ∧
    (slash 100 121 100 100 none).Valid Demo.env beforeTaking ∧
    Spares (mine 122 100) (withdraw 100 120 600 121) ∧ Spares (mine 122 100) (slash 100 121 100 100 none) ∧
    Alike Demo.env SameEvent ⟨beforeTaking.now, w1⟩ (beforeTaking.apply Demo.env (slash 100 121 100 100 none)) later later ∧
    RunsWith Demo.env (fun s e => CleanEvent Demo.env s e ∧ RoomInPool Demo.env 100 s e ∧
      Spares (mine 122 100) e) ⟨beforeTaking.now, w1⟩ later s1 ∧
    RunsWith Demo.env (fun s e => CleanEvent Demo.env s e ∧ RoomInPool Demo.env 100 s e ∧
      Spares (mine 122 100) e) (beforeTaking.apply Demo.env (slash 100 121 100 100 none)) later s2 ∧
    hasPool s1.world 100 (fun p => decide (p.cumulative.length < Demo.env.caps.index)) = true ∧
    hasPool s2.world 100 (fun p => decide (p.cumulative.length < Demo.env.caps.index)) = true ∧
    0 < (beforeTaking.world 100).lamports ∧ 0 < (beforeTaking.world (mine 122 100)).lamports ∧
    hasPool beforeTaking.world 100 (fun p => hasMining beforeTaking.world (mine 122 100) (fun m =>
      decide (m.index ≤ p.index))) = true ∧
    hasPool s1.world 100 (fun p1 => hasPool s2.world 100 (fun p2 => hasMining s1.world (mine 122 100) (fun m =>
      decide (owed m p2.cumulative < owed m p1.cumulative)))) = true := by
  obtain ⟨w1, r1, h1, h3, h4, h5⟩ := two_continuations (s := beforeTaking) (es := later) (accs := choiceAccs')
    (i := .withdrawMining 600 120 121) (e := slash 100 121 100 100 none)
    (cleanB_sound (P := 100) (k := mine 122 100)) (cleanB_sound (P := 100) (k := mine 122 100))
    cleanB_ok cleanB_ok (by decide +kernel) (by decide +kernel) (by decide +kernel)
  exact ⟨w1, r1, _, _, after_reachable (by decide +kernel), h1,
    takesLess_delegated rfl rfl ⟨mine 121 100, rfl, by decide⟩ (fun x => by show (100 : Int) ≤ 600; decide),
    (okEvent_sound (by decide +kernel)).1, sparesOneB_sound (by decide +kernel), sparesOneB_sound (by decide +kernel), h3, h4,
    h5, by decide +kernel, by decide +kernel, by decide +kernel, by decide +kernel, by decide +kernel, by decide +kernel⟩

/-- C92 is false for delegated stake, which counts for the staker and for the delegate, so that a withdrawal lowers the
pool's total by more than the staker's part.  User 120, the only staker, with 1000 tokens of their own and 1000 on a delegate,
takes the latter back: the next distribution pays them more than 300 tokens more. -/
theorem C92_delegated_false : ∃ s1 s2 p1 p2 m1 m2,
    RunsWith Demo.env (CleanEvent Demo.env) s0 (delegatedBefore ++ [deposit 100 120 1000 .flex 121, withdraw 100 120 1000 121,
      distribute 100]) s1 ∧
    RunsWith Demo.env (CleanEvent Demo.env) s0 (delegatedBefore ++ [deposit 100 120 1000 .flex 121, distribute 100]) s2 ∧
    PoolAt Demo.env s1.world 100 p1 ∧ PoolAt Demo.env s2.world 100 p2 ∧ MiningAt Demo.env s1.world (mine 120 100) m1 ∧
    MiningAt Demo.env s2.world (mine 120 100) m2 ∧
    owed m2 p2.cumulative + 10 ^ 16 * 300 < owed m1 p1.cumulative := by
  let s1 := (run s0 (delegatedBefore ++ [deposit 100 120 1000 .flex 121, withdraw 100 120 1000 121, distribute 100])).getD s0
  let s2 := (run s0 (delegatedBefore ++ [deposit 100 120 1000 .flex 121, distribute 100])).getD s0
  have h : hasPool s1.world 100 (fun p1 => hasPool s2.world 100 (fun p2 => hasMining s1.world (mine 120 100) (fun m1 =>
      hasMining s2.world (mine 120 100) (fun m2 =>
        decide (owed m2 p2.cumulative + 10 ^ 16 * 300 < owed m1 p1.cumulative))))) = true := by decide +kernel
  obtain ⟨p1, hp1, h⟩ := hasPool_sound h
  obtain ⟨p2, hp2, h⟩ := hasPool_sound h
  obtain ⟨m1, hm1, h⟩ := hasMining_sound h
  obtain ⟨m2, hm2, h⟩ := hasMining_sound h
  exact ⟨s1, s2, p1, p2, m1, m2, run_sound (run_eq (by decide +kernel)), run_sound (run_eq (by decide +kernel)), hp1, hp2,
    hm1, hm2, of_decide_eq_true h⟩

/-- A large stake for six months, and a distribution after its end. -/
def largeStake : List Event := [deposit 100 127 100000 .sixMonths 127, .tick (190 * DAY), distribute 100]

def withdrawOrNotB (s : Chain) : Bool :=
  allPass okEvent s (withdraw 100 120 1 120 :: largeStake) && allPass okEvent s largeStake &&
    hasPool (endOf s (withdraw 100 120 1 120 :: largeStake)).world 100 (fun p1 => hasPool (endOf s largeStake).world 100 (fun p2 =>
      hasMining (endOf s (withdraw 100 120 1 120 :: largeStake)).world (mine 120 100) (fun m1 =>
      hasMining (endOf s largeStake).world (mine 120 100) (fun m2 =>
        decide (owed m2 p2.cumulative + 10 ^ 16 < owed m1 p1.cumulative)))))

theorem withdrawOrNot : (match run s0 (tableFull .threeMonths) with | some s => withdrawOrNotB s | none => false) = true := by
  decide +kernel

/-- C92 is false with a full table: user 120 withdraws a single token, which makes the pool drop the dates that have passed,
so that there is room for the date of the large stake of another user; without the withdrawal that stake counts in the pool's
total for ever with its multiplier, and user 120 earns less. -/
theorem C92_full_table_false : ∃ s s1 s2 p1 p2 m1 m2, Reachable Demo.env s ∧
    RunsWith Demo.env (CleanEvent Demo.env) s (withdraw 100 120 1 120 :: largeStake) s1 ∧
    RunsWith Demo.env (CleanEvent Demo.env) s largeStake s2 ∧
    PoolAt Demo.env s1.world 100 p1 ∧ PoolAt Demo.env s2.world 100 p2 ∧ MiningAt Demo.env s1.world (mine 120 100) m1 ∧
    MiningAt Demo.env s2.world (mine 120 100) m2 ∧ owed m2 p2.cumulative + 10 ^ 16 < owed m1 p1.cumulative := by
  have h := withdrawOrNot
  split at h
  · rename_i s hs
    simp only [withdrawOrNotB, Bool.and_eq_true] at h
    obtain ⟨⟨h1, h2⟩, h⟩ := h
    obtain ⟨p1, hp1, h⟩ := hasPool_sound h
    obtain ⟨p2, hp2, h⟩ := hasPool_sound h
    obtain ⟨m1, hm1, h⟩ := hasMining_sound h
    obtain ⟨m2, hm2, h⟩ := hasMining_sound h
    exact ⟨s, _, _, p1, p2, m1, m2, reachable hs, allPass_sound (fun _ _ h => okEvent_sound h) h1,
      allPass_sound (fun _ _ h => okEvent_sound h) h2, hp1, hp2, hm1, hm2, of_decide_eq_true h⟩
  · cases h

/-- On each of `n` days the staker `o` locks tokens for six months and for a year. -/
def longTerm (o : Key) : Nat → List Event
  | 0 => []
  | n + 1 => deposit 100 o 10 .sixMonths o :: deposit 100 o 10 .oneYear o :: .tick DAY :: longTerm o n

/-- Eight stakers fill the pool's table; the first three dates in it have passed in the end. -/
def fullOfLong : List Event := initPool 100 :: ([120, 121, 122, 123, 124, 125, 126, 127].map (initMining 100) ++
  [120, 121, 122, 123, 124, 125, 126].flatMap (longTerm · 23) ++ longTerm 127 21 ++
  [deposit 100 127 10 .sixMonths 127, fill 100 1000000 (day0 + 700 * DAY)])

/-- What follows: more dates than the table can hold, a distribution, a large stake for a year, and a distribution after its
end. -/
def crowded : List Event :=
  [.tick DAY, deposit 100 121 10 .sixMonths 121, deposit 100 121 10 .oneYear 121, .tick DAY,
    deposit 100 121 10 .sixMonths 121, distribute 100, deposit 100 121 10 .oneYear 121, .tick DAY,
    deposit 100 121 10 .oneYear 121, .tick DAY, deposit 100 122 1000000 .oneYear 122, .tick (370 * DAY), distribute 100]

def crowdedB (s : Chain) : Bool :=
  allPass okEvent s (withdraw 100 120 1 120 :: crowded) && allPass okEvent s crowded &&
    hasPool (endOf s (withdraw 100 120 1 120 :: crowded)).world 100 (fun p1 => hasPool (endOf s crowded).world 100 (fun p2 =>
      hasMining (endOf s (withdraw 100 120 1 120 :: crowded)).world (mine 125 100) (fun m1 =>
      hasMining (endOf s crowded).world (mine 125 100) (fun m2 =>
        decide (m2 = m1 ∧ owed m1 p1.cumulative + 10 ^ 16 < owed m1 p2.cumulative)))))

theorem withdrawCrowded : (match run s0 fullOfLong with | some s => crowdedB s | none => false) = true := by
  decide +kernel

/-- C93 is false with a full table: user 120 withdraws a single token, which makes the pool drop the dates that have passed.
Then other dates find a place, and when later a large stake begins, there is none for its date: it counts in the pool's total
for ever with its multiplier, and user 125, who does nothing, earns less than without the withdrawal, here by more than a token. -/
theorem C93_full_table_false : ∃ s s1 s2 p1 p2 m, Reachable Demo.env s ∧
    RunsWith Demo.env (CleanEvent Demo.env) s (withdraw 100 120 1 120 :: crowded) s1 ∧
    RunsWith Demo.env (CleanEvent Demo.env) s crowded s2 ∧
    PoolAt Demo.env s1.world 100 p1 ∧ PoolAt Demo.env s2.world 100 p2 ∧ MiningAt Demo.env s1.world (mine 125 100) m ∧
    MiningAt Demo.env s2.world (mine 125 100) m ∧ owed m p1.cumulative + 10 ^ 16 < owed m p2.cumulative := by
  have h := withdrawCrowded
  split at h
  · rename_i s hs
    simp only [crowdedB, Bool.and_eq_true] at h
    obtain ⟨⟨h1, h2⟩, h⟩ := h
    obtain ⟨p1, hp1, h⟩ := hasPool_sound h
    obtain ⟨p2, hp2, h⟩ := hasPool_sound h
    obtain ⟨m1, hm1, h⟩ := hasMining_sound h
    obtain ⟨m2, hm2, h⟩ := hasMining_sound h
    obtain ⟨rfl, h⟩ := of_decide_eq_true h
    exact ⟨s, _, _, p1, p2, m2, reachable hs, allPass_sound (fun _ _ h => okEvent_sound h) h1,
      allPass_sound (fun _ _ h => okEvent_sound h) h2, hp1, hp2, hm1, hm2, h⟩
  · cases h

end Examples

end Verif
