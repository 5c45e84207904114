import Verif.Lemmas.Pair
import Verif.Lemmas.DemoIncentive
import Verif.Props.Trade
/-!
C116: what a delegation earns the staker and the delegate together.
-/

namespace Verif

open Spec

section
variable {env : Env}

/-- **C116**.  Let a history (orderly for the pool: see `Orderly`) be continued in two ways.  In the first somebody deposits `a`
tokens undelegated; in the second they deposit the same, delegated to the mining at `D`, which is up to date.  Both go on with the
same events (only what other programs do may differ), in which the staker and the delegate do nothing.  Then, in the end,
* staker and delegate together are owed at least as much with the delegation as without, except for roundings: 1/10^16 token per
  unit of their stake and distribution; and so is the delegate alone;
* the staker alone, and every other mining of the pool that has done nothing, is owed at most as much.
So stakers with a second mining of their own always do better to delegate to it, at the cost of everybody else. -/
theorem C116_pair (hi : env.PdaInjective) {s0 s t1 t2 s1 s2 : Chain} {es0 es es' : List Event} {e1 e2 : Event} {P M D V : Key}
    {a : Nat} {l : LockupPeriod} {p p1 p2 : Pool} {y : Mining} (hg : Genesis env s0)
    (hr0 : RunsWith env (Orderly env P V) s0 es0 s) (hp : PoolAt env s.world P p)
    (hV : env.findVault P p.rewardMint = some (V, p.bump)) (hpl : 0 < (s.world P).lamports)
    (hml : 0 < (s.world M).lamports) (hdl : 0 < (s.world D).lamports) (hy : Member env s.world P D y)
    (hu : UpToDate s.now p.cumulative y) (hMD : M ≠ D)
    (h1 : RunsWith env (fun s e => Deposits env P M M a l s e ∧ Orderly env P V s e) s [e1] t1)
    (h2 : RunsWith env (Deposits env P M D a l) s [e2] t2)
    (hr1 : RunsWith env (fun s e => Orderly env P V s e ∧ RoomInPool env P s e ∧ Spares M e ∧ Spares D e) t1 es s1)
    (hr2 : RunsWith env (fun s e => CleanEvent env s e ∧ RoomInPool env P s e ∧ Spares M e ∧ Spares D e) t2 es' s2)
    (hal : Alike env SameEvent t1 t2 es es') (hn : s1.now < 2 ^ 64)
    (hp1' : PoolAt env s1.world P p1) (hp2' : PoolAt env s2.world P p2)
    (hroom1 : p1.cumulative.length < env.caps.index) (hroom2 : p2.cumulative.length < env.caps.index) :
    ∃ m y', (MiningAt env s1.world M m ∧ MiningAt env s1.world D y) ∧ (MiningAt env s2.world M m ∧ MiningAt env s2.world D y') ∧
      owed m p1.cumulative + owed y p1.cumulative ≤ owed m p2.cumulative + owed y' p2.cumulative +
        (totalIn env (takesPart env P m) t2 es' + totalIn env (takesPart env P y') t2 es') ∧
      owed y p1.cumulative ≤ owed y' p2.cumulative + totalIn env (takesPart env P y') t2 es' ∧
      owed m p2.cumulative ≤ owed m p1.cumulative ∧
      ∀ K x, K ≠ M → K ≠ D → Member env s.world P K x → 0 < (s.world K).lamports → (∀ e ∈ es, Spares K e) → (∀ e ∈ es', Spares K e) →
        MiningAt env s1.world K x ∧ MiningAt env s2.world K x ∧ owed x p2.cumulative ≤ owed x p1.cumulative := by
  have hre : Reachable env s := ⟨s0, es0, hg, hr0.weaken fun _ _ h => h.clean⟩
  have hw := reachable_wf hre
  cases h1 with | cons v1 d1 h1 =>
  cases h1
  cases h2 with | cons v2 d2 h2 =>
  cases h2
  obtain ⟨n1, n2, ⟨q1, b1, b2, b3, b4⟩, ⟨m, c1, c2, c3⟩, y1, y2, rest, lam⟩ := with_and_without hw hp hy hu hMD v1 d1.1 v2 d2
  have hro : RunsWith env (Orderly env P V) s0 (es0 ++ [e1]) (s.apply env e1) :=
    hr0.append (.cons v1 d1.2 (.nil _))
  have hre1 : Reachable env (s.apply env e1) := hre.step v1 d1.1.clean
  have hre2 : Reachable env (s.apply env e2) := hre.step v2 d2.clean
  have hh := (poolAt_good hw hp).ok.history
  have hsn : s.now < 2 ^ 64 := by
    rw [← n1]
    exact Nat.lt_of_le_of_lt (run_now_le hr1) hn
  have books := (runs_solvent hi (orderly_pool_ne_zero hg hr0 hp) hg hr0 hsn).2.2.2.books p hp hV
  have hidx : indexBefore p.cumulative s.now ≤ p.index :=
    Nat.le_trans (indexBefore_le_last hh _) (lastIndex_le (Nat.zero_le _) (poolAt_good hw hp).ok.index)
  have hyb := (books.sound D y hy).backed
  have hye := earning_more hyb a
  have sch : SameSchedule q1 { q1 with totalShare := q1.totalShare + a } := ⟨rfl, rfl, rfl⟩
  have hap : Apart (s.apply env e1).now (fun _ => a) q1 { q1 with totalShare := q1.totalShare + a } := by
    intro x _
    simp only [totalOn]
    omega
  have hu' : owed y q1.cumulative ≤ owed { y with stakeFromOthers := y.stakeFromOthers + a } q1.cumulative := by
    rw [b3.2.2.2]
    exact owed_le_now hh hu.index rfl rfl fun x _ => by rw [hye]; omega
  obtain ⟨g1, g2, g3, g4⟩ := compare_pair hi (a := a) hg hro hre2 (n1.trans n2.symm) b1 b2
    (by rw [b4.2.2.2.1, b4.2.2.2.2.1]; exact hV) (by rw [(lam P).1]; exact hpl) (by rw [(lam P).2]; exact hpl)
    (by rw [(lam M).1]; exact hml) (by rw [(lam M).2]; exact hml) (by rw [(lam D).1]; exact hdl)
    (by rw [(lam D).2]; exact hdl) hMD c1 c2.1 y1 y2.1 sch hap hye (by rw [c3, b3.2.2.1]; exact hidx)
    (by rw [c3]; show _ ≤ q1.index; rw [b3.2.2.1]; exact hidx) (by rw [hu.index, b3.2.2.1]; exact hidx)
    (by show y.index ≤ q1.index; rw [hu.index, b3.2.2.1]; exact hidx) rfl hu' hr1 hr2 hal hn hp1' hp2' hroom1 hroom2
  have other : ∀ K x, MiningAt env (s.apply env e1).world K x → MiningAt env (s.apply env e2).world K x →
      0 < (s.world K).lamports → x.index ≤ indexBefore p.cumulative s.now →
      RunsWith env (fun s e => CleanEvent env s e ∧ RoomInPool env P s e ∧ Spares K e) (s.apply env e1) es s1 →
      RunsWith env (fun s e => CleanEvent env s e ∧ RoomInPool env P s e ∧ Spares K e) (s.apply env e2) es' s2 →
      MiningAt env s1.world K x ∧ MiningAt env s2.world K x ∧ owed x p2.cumulative ≤ owed x p1.cumulative := by
    intro K x k1 k2 k3 k4 k5 k6
    exact compare_others (c := fun _ => a) hre1 hre2 (n1.trans n2.symm) b1 b2 (by rw [(lam P).1]; exact hpl)
      (by rw [(lam P).2]; exact hpl) (by rw [(lam K).1]; exact k3) (by rw [(lam K).2]; exact k3) k1 k2 sch hap
      (fun _ _ => Int.natCast_nonneg _) (by rw [b3.2.2.1]; omega) (by show _ ≤ q1.index; rw [b3.2.2.1]; omega) (Nat.le_refl _)
      k5 k6 hal hp1' hp2' hroom1 hroom2
  refine ⟨m, _, g1, g2, g3, g4, ?_, ?_⟩
  · exact (other M m c1.1 c2.1 hml (Nat.le_of_eq c3) (hr1.weaken fun _ _ h => ⟨h.1.clean, h.2.1, h.2.2.1⟩)
      (hr2.weaken fun _ _ h => ⟨h.1, h.2.1, h.2.2.1⟩)).2.2
  · intro K x k1 k2 k3 k4 k5 k6
    have hKP : K ≠ P := by
      rintro rfl
      have e1 := k3.1.2
      have e2 := hp.2
      rw [e1] at e2
      cases e2
    obtain ⟨r1, r2⟩ := rest K hKP k1 k2
    exact other K x ((miningAt_congr r1).mpr k3.1) ((miningAt_congr r2).mpr k3.1) k4 (books.sound K x k3).index
      ((runs_also hr1 k5).weaken fun _ _ h => ⟨h.1.1.clean, h.1.2.1, h.2⟩)
      ((runs_also hr2 k6).weaken fun _ _ h => ⟨h.1.1, h.1.2.1, h.2⟩)

end

section Examples

open Demo

/-- User 121, who has just claimed their rewards, can be the delegate of user 120. -/
def settledDelegate : List Event := threeBefore ++ [claim 100 121 131]

def beforePair : Chain := (orderlyRun 100 (vaultOf 100 101) s0 settledDelegate).getD s0

/-- What happens then: users 120 and 121 do nothing. -/
def afterPair : List Event :=
  [.tick DAY, distribute 100, .tick 10, initMining 100 123, deposit 100 123 700 .threeMonths 123, withdraw 100 123 100 123, .tick DAY,
    distribute 100, .tick (3 * DAY), distribute 100]

def undelegated : Event := deposit 100 120 400 .sixMonths 120
def delegated : Event := deposit 100 120 400 .sixMonths 121

def sparesTwoB (c : Chain → Event → Bool) (k : Key) (s : Chain) (e : Event) : Bool := c s e && sparesOneB k e

theorem sparesTwoB_clean {P j k : Key} (s : Chain) (e : Event) (h : sparesTwoB (cleanB P j) k s e = true) : e.Valid Demo.env s ∧
    (CleanEvent Demo.env s e ∧ RoomInPool Demo.env P s e ∧ Spares j e ∧ Spares k e) := by
  simp only [sparesTwoB, Bool.and_eq_true] at h
  obtain ⟨h1, h2, h3, h4⟩ := cleanB_sound s e h.1
  exact ⟨h1, h2, h3, h4, sparesOneB_sound h.2⟩

theorem sparesTwoB_tidy {P V j k : Key} (s : Chain) (e : Event) (h : sparesTwoB (tidyB P V j) k s e = true) : e.Valid Demo.env s ∧
    (Orderly Demo.env P V s e ∧ RoomInPool Demo.env P s e ∧ Spares j e ∧ Spares k e) := by
  simp only [sparesTwoB, Bool.and_eq_true] at h
  obtain ⟨h1, h2, h3, h4⟩ := tidyB_sound s e h.1
  exact ⟨h1, h2, h3, h4, sparesOneB_sound h.2⟩

/-- What the mining at `k` is owed. -/
def owedAt (s : Chain) (P k : Key) : Nat :=
  match (s.world P).content, (s.world k).content with
  | .pool p, .mining m => owed m p.cumulative
  | _, _ => 0

def readyB (s : Chain) (P V D : Key) : Bool := hasPool s.world P fun p => hasMining s.world D fun m =>
  decide (Demo.env.findVault P p.rewardMint = some (V, p.bump)) && decide (m.rewardPool = P) &&
  decide (m.index = indexBefore p.cumulative s.now) && m.diffs.all (fun e => decide (midnight s.now < e.1)) &&
    decide (m.share + m.stakeFromOthers < 2 ^ 64)

theorem readyB_sound {s : Chain} {P V D : Key} (h : readyB s P V D = true) : ∃ p m, PoolAt Demo.env s.world P p ∧
    Demo.env.findVault P p.rewardMint = some (V, p.bump) ∧ Member Demo.env s.world P D m ∧ UpToDate s.now p.cumulative m := by
  obtain ⟨p, hp, h⟩ := hasPool_sound h
  obtain ⟨m, hm, h⟩ := hasMining_sound h
  simp only [Bool.and_eq_true, decide_eq_true_eq, List.all_eq_true] at h
  exact ⟨p, m, hp, h.1.1.1.1, ⟨hm, h.1.1.1.2⟩, h.1.1.2, h.1.2, h.2⟩

/-- The hypotheses of `C116_pair` are met; user 123 joins and leaves meanwhile, and user 122 looks on.  Users 120 and 121 together are
owed more than 20 tokens more if they delegate; user 122 is owed more than 20 tokens less. -/
example : ∃ es0 p y t1 t2 p1 p2, Genesis Demo.env s0 ∧
    RunsWith Demo.env (Orderly Demo.env 100 (vaultOf 100 101)) s0 es0 beforePair ∧ PoolAt Demo.env beforePair.world 100 p ∧
    Member Demo.env beforePair.world 100 (mine 121 100) y ∧
    UpToDate beforePair.now p.cumulative y ∧
    RunsWith Demo.env (fun s e => Deposits Demo.env 100 (mine 120 100) (mine 120 100) 400 .sixMonths s e ∧
      Orderly Demo.env 100 (vaultOf 100 101) s e) beforePair [undelegated] t1 ∧
    RunsWith Demo.env (Deposits Demo.env 100 (mine 120 100) (mine 121 100) 400 .sixMonths) beforePair [delegated] t2 ∧
    RunsWith Demo.env (fun s e => Orderly Demo.env 100 (vaultOf 100 101) s e ∧ RoomInPool Demo.env 100 s e ∧
      Spares (mine 120 100) e ∧ Spares (mine 121 100) e) t1 afterPair (endOf t1 afterPair) ∧
    RunsWith Demo.env (fun s e => CleanEvent Demo.env s e ∧ RoomInPool Demo.env 100 s e ∧ Spares (mine 120 100) e ∧
      Spares (mine 121 100) e) t2 afterPair (endOf t2 afterPair) ∧
    Alike Demo.env SameEvent t1 t2 afterPair afterPair ∧ (endOf t1 afterPair).now < 2 ^ 64 ∧
    PoolAt Demo.env (endOf t1 afterPair).world 100 p1 ∧ PoolAt Demo.env (endOf t2 afterPair).world 100 p2 ∧
    Demo.env.findVault 100 p.rewardMint = some (vaultOf 100 101, p.bump) ∧
    0 < (beforePair.world 100).lamports ∧ 0 < (beforePair.world (mine 120 100)).lamports ∧
    0 < (beforePair.world (mine 121 100)).lamports ∧
    p1.cumulative.length < Demo.env.caps.index ∧ p2.cumulative.length < Demo.env.caps.index ∧
    owedAt (endOf t1 afterPair) 100 (mine 120 100) + owedAt (endOf t1 afterPair) 100 (mine 121 100) + 10 ^ 16 * 20 <
      owedAt (endOf t2 afterPair) 100 (mine 120 100) + owedAt (endOf t2 afterPair) 100 (mine 121 100) ∧
    owedAt (endOf t2 afterPair) 100 (mine 122 100) + 10 ^ 16 * 20 < owedAt (endOf t1 afterPair) 100 (mine 122 100) := by
  obtain ⟨p, y, hp, hV, hy, hu⟩ := readyB_sound (s := beforePair) (P := 100) (V := vaultOf 100 101) (D := mine 121 100)
    (by decide +kernel)
  have d1 : depositsB 100 (mine 120 100) (mine 120 100) 400 .sixMonths beforePair undelegated = true := by decide +kernel
  have o1 : orderlyB 100 (vaultOf 100 101) beforePair undelegated = true := by decide +kernel
  have d2 : depositsB 100 (mine 120 100) (mine 121 100) 400 .sixMonths beforePair delegated = true := by decide +kernel
  have r1 : allPass (sparesTwoB (tidyB 100 (vaultOf 100 101) (mine 120 100)) (mine 121 100))
      (beforePair.apply Demo.env undelegated) afterPair = true := by decide +kernel
  have r2 : allPass (sparesTwoB (cleanB 100 (mine 120 100)) (mine 121 100)) (beforePair.apply Demo.env delegated) afterPair = true := by
    decide +kernel
  obtain ⟨p1, hp1, hl1⟩ := hasPool_sound (w := (endOf (beforePair.apply Demo.env undelegated) afterPair).world) (k := 100)
    (f := fun p => decide (p.cumulative.length < Demo.env.caps.index)) (by decide +kernel)
  obtain ⟨p2, hp2, hl2⟩ := hasPool_sound (w := (endOf (beforePair.apply Demo.env delegated) afterPair).world) (k := 100)
    (f := fun p => decide (p.cumulative.length < Demo.env.caps.index)) (by decide +kernel)
  exact ⟨_, p, y, _, _, p1, p2, s0_genesis, orderlyRun_eq (es := settledDelegate) (by decide +kernel), hp, hy, hu,
    .cons (depositsB_sound _ _ d1).1 ⟨(depositsB_sound _ _ d1).2, (orderlyB_sound o1).2⟩ (.nil _),
    .cons (depositsB_sound _ _ d2).1 (depositsB_sound _ _ d2).2 (.nil _),
    allPass_sound sparesTwoB_tidy r1, allPass_sound sparesTwoB_clean r2,
    allPass_alike (fun s e h => by simp only [sparesTwoB, Bool.and_eq_true] at h; exact tidyB_ok _ _ h.1)
      (fun s e h => by simp only [sparesTwoB, Bool.and_eq_true] at h; exact cleanB_ok _ _ h.1) r1 r2,
    by decide +kernel, hp1, hp2, hV, by decide +kernel, by decide +kernel, by decide +kernel, of_decide_eq_true hl1,
    of_decide_eq_true hl2, by decide +kernel, by decide +kernel⟩

end Examples

end Verif
