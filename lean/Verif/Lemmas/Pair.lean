import Verif.Lemmas.TradeDeposit
import Verif.Lemmas.Reduce
/-!
A staker and a delegate together, with and without the delegation.
-/

namespace Verif

open Spec

variable {env : Env}

theorem runs_also {C : Chain → Event → Prop} {Q : Event → Prop} {s s' : Chain} {es : List Event} (h : RunsWith env C s es s')
    (hQ : ∀ e ∈ es, Q e) : RunsWith env (fun s e => C s e ∧ Q e) s es s' := by
  induction h with
  | nil => exact .nil _
  | cons hv hc _ ih => exact .cons hv ⟨hc, hQ _ (by simp)⟩ (ih fun e he => hQ e (by simp [he]))

/-- A deposit with and without a delegate who is up to date. -/
theorem delegated_or_not {caps : Caps} {now a : Nat} {l : LockupPeriod} {p p1 p2 : Pool} {m m1 m2 y y2 : Mining}
    (hp : PoolOk now p) (hm : MiningOk m) (hy : MiningOk y) (hu : UpToDate now p.cumulative y)
    (h1 : p.deposit caps now m a l none = .ok (p1, m1, none))
    (h2 : p.deposit caps now m a l (some y) = .ok (p2, m2, some y2)) :
    m2 = m1 ∧ p2 = { p1 with totalShare := p1.totalShare + a } ∧ y2 = { y with stakeFromOthers := y.stakeFromOthers + a } := by
  obtain ⟨x, e, g1, g2, -, -, -, -, -, -, rfl, g3⟩ := deposit_ok (refresh_sorted hp hm) h2
  obtain ⟨x', e', f1, f2, -, -, -, -, -, -, rfl, f3⟩ := deposit_ok (refresh_sorted hp hm) h1
  rw [g1] at f1; obtain rfl := Except.ok.inj f1
  rw [g2] at f2; obtain rfl := Except.ok.inj f2
  rw [withDelegate_none] at f3
  obtain ⟨rfl, -⟩ := f3
  rw [withDelegate_some] at g3
  obtain ⟨y1', g3, e3⟩ := g3
  obtain rfl := Option.some.inj e3
  rw [delegateAdd_ok] at g3
  obtain ⟨-, -, g4, rfl⟩ := g3
  refine ⟨rfl, rfl, ?_⟩
  have hcum : History p.cumulative := hp.history
  have hfix : ({ y with stakeFromOthers := y.stakeFromOthers + a } : Mining).refreshRewards now p.cumulative =
      .ok { y with stakeFromOthers := y.stakeFromOthers + a } := by
    refine refresh_fixed hcum ⟨hy.sorted, hy.aligned⟩ hu.index hu.locks ?_
    have hs : Sorted ({ y with stakeFromOthers := y.stakeFromOthers + a } : Mining).diffs := hy.sorted
    exact ((refresh_iff hcum hs).mp g4).1
  exact Except.ok.inj (g4.symm.trans hfix)

/-- The two states after a deposit without and with a delegation. -/
structure WithAndWithout (env : Env) (P M D : Key) (a : Nat) (s t1 t2 : Chain) (p : Pool) (y : Mining) : Prop where
  now1 : t1.now = s.now
  now2 : t2.now = s.now
  pools : ∃ q1, PoolAt env t1.world P q1 ∧ PoolAt env t2.world P { q1 with totalShare := q1.totalShare + a } ∧
    SameBudget p q1 ∧ SameConfig p q1
  staker : ∃ m1, Member env t1.world P M m1 ∧ Member env t2.world P M m1 ∧ m1.index = indexBefore p.cumulative s.now
  delegate1 : Member env t1.world P D y
  delegate2 : Member env t2.world P D { y with stakeFromOthers := y.stakeFromOthers + a }
  rest : ∀ k, k ≠ P → k ≠ M → k ≠ D → t1.world k = s.world k ∧ t2.world k = s.world k
  lamports : ∀ k, (t1.world k).lamports = (s.world k).lamports ∧ (t2.world k).lamports = (s.world k).lamports

theorem Spec.Deposits.clean {P M D : Key} {a : Nat} {l : LockupPeriod} {s : Chain} {e : Event} (h : Deposits env P M D a l s e) :
    CleanEvent env s e := by
  obtain ⟨accs, o, d, rfl, -⟩ := h
  exact trivial

theorem deposits_member {P M D : Key} {a : Nat} {l : LockupPeriod} {s : Chain} {e : Event} (hw : Wf env s.now s.world)
    (hv : e.Valid env s) (h : Deposits env P M D a l s e) : ∃ m, Member env s.world P M m := by
  obtain ⟨accs, o, dl, rfl, h1, h2, h3, h4⟩ := h
  unfold succeeded at h1
  split at h1
  · rename_i r hx
    obtain ⟨w', ret⟩ := r
    have step := step_of_exec hw hv (by exact trivial) hx
    cases step with
    | @stake i P' M' A' D' p0 p' m0 m' d0 d' accs_eq op chk del quiet same sfo ok' sameDel eff shell =>
      obtain ⟨rest', rfl⟩ := accs_eq
      obtain rfl : P'.key = P := Option.some.inj h2
      obtain rfl : M'.key = M := Option.some.inj h3
      exact ⟨m0, eff.mining, chk.inPool⟩
  · cases h1

theorem with_and_without {P M D : Key} {a : Nat} {l : LockupPeriod} {s : Chain} {e1 e2 : Event} {p : Pool} {y : Mining}
    (hw : Wf env s.now s.world) (hp : PoolAt env s.world P p) (hy : Member env s.world P D y)
    (hu : UpToDate s.now p.cumulative y) (hMD : M ≠ D) (v1 : e1.Valid env s) (h1 : Deposits env P M M a l s e1)
    (v2 : e2.Valid env s) (h2 : Deposits env P M D a l s e2) :
    WithAndWithout env P M D a s (s.apply env e1) (s.apply env e2) p y := by
  obtain ⟨p0, p1, m, m1, d, d1, c1⟩ := deposits hw v1 h1
  obtain ⟨q0, p2, n, m2, g, g1, c2⟩ := deposits hw v2 h2
  obtain rfl := PoolAt.unique hp c1.eff.pool
  obtain rfl := PoolAt.unique hp c2.eff.pool
  obtain rfl := MiningAt.unique c1.eff.mining c2.eff.mining
  rcases c1.eff.delegate with ⟨-, rfl, rfl⟩ | ⟨hh, -⟩
  case inr => exact absurd rfl hh
  rcases c2.eff.delegate with ⟨hh, -⟩ | ⟨-, hDP, -, x, x', rfl, rfl, hx⟩
  · exact absurd hh.symm hMD
  obtain ⟨rfl, hx'⟩ := hx y hy.1
  obtain ⟨rfl, rfl, rfl⟩ := delegated_or_not c1.poolOk c1.ok (c2.delOk _ rfl) hu c1.op c2.op
  obtain ⟨b1, b2, b3, b4, -⟩ := deposit_same c1.poolOk c1.ok (by simp) c1.op
  obtain ⟨m0, k1, k2⟩ := deposits_member hw v1 h1
  obtain rfl := MiningAt.unique c1.eff.mining k1
  have ci := credited_index c1.poolOk.history c1.ok (deposit_credit c1.poolOk c1.ok c1.op).1
  have hD : (s.apply env e1).world D = s.world D := c1.eff.frame D hDP hMD.symm hMD.symm
  refine ⟨c1.now, c2.now, ⟨_, c1.eff.pool', c2.eff.pool', ⟨b1.avail, b1.ends, b1.index, b1.cumulative⟩, ?_⟩,
    ⟨_, ⟨c1.eff.mining', b2.rewardPool.trans k2⟩, ⟨c2.eff.mining', b2.rewardPool.trans k2⟩, ci.2⟩,
    ⟨(miningAt_congr hD).mpr hy.1, hy.2⟩, ⟨hx', hy.2⟩, fun k j1 j2 j3 => ⟨c1.eff.frame k j1 j2 j2, c2.eff.frame k j1 j2 j3⟩,
    fun k => ⟨(c1.shell k).2.1, (c2.shell k).2.1⟩⟩
  exact ⟨b1.same.depositAuthority, b1.same.distributeAuthority, b1.same.fillAuthority, b1.same.rewardMint, b1.same.bump,
    b1.same.accountType⟩

/-- The income of two minings compared where one of them has `d` more stake delegated to it, and the total is as much larger. -/
theorem income_pair {s t : Chain} {e : Event} (hnow : s.now = t.now) (hs : Wf env s.now s.world) (hv : e.Valid env s)
    (hc : CleanEvent env s e) (hal : ∀ accs i, e = .ix accs i → succeeded env s accs i = succeeded env t accs i) {P : Key}
    {p q : Pool} (hp : PoolAt env s.world P p) (hq : PoolAt env t.world P q) (hsch : SameSchedule p q) {d : Nat}
    (hδ : Apart s.now (fun _ => d) p q) {m y y' : Mining}
    (hy : earningOn y' (midnight s.now) = earningOn y (midnight s.now) + d)
    (hle : (earningOn m (midnight s.now) + earningOn y (midnight s.now) : Int) ≤ totalOn p (midnight s.now)) :
    incomeBy env P m s e + incomeBy env P y s e ≤
      incomeBy env P m t e + incomeBy env P y' t e + (takesPart env P m t e + takesPart env P y' t e) := by
  cases e <;> try exact Nat.zero_le _
  rename_i accs i
  have hal := hal accs i rfl
  simp only [incomeBy, takesPart, distributedBy, hp.2, hq.2, ← hal, ← hnow]
  by_cases hx : succeeded env s accs i = true
  · simp only [if_pos hx, incomeFrom]
    rw [← hsch.distributed accs s.now P i]
    by_cases h0 : 0 < distributedFrom accs s.now P p i
    · rw [if_pos h0, if_pos h0]
      have hT : 0 < totalOn p (midnight s.now) := by
        unfold succeeded at hx
        split at hx
        · rename_i r hr
          exact distributed_pos hs hv hc (w' := r.1) (r := r.2) hr hp h0
        · cases hx
      have h3 := hδ _ (Nat.le_refl _)
      dsimp only at h3
      have h4 : (totalOn q (midnight s.now)).toNat = (totalOn p (midnight s.now)).toNat + d := by omega
      rw [h4, ← Nat.mul_add, ← Nat.mul_add, hy]
      refine part_le (by omega) (by omega) (Or.inr ?_)
      omega
    · have h0 : distributedFrom accs s.now P p i = 0 := by omega
      rw [h0]; simp
  · simp [hx]

/-- The income of a mining that has `d` more stake delegated to it, where the total is as much larger. -/
theorem income_delegate {s t : Chain} {e : Event} (hnow : s.now = t.now) (hs : Wf env s.now s.world) (hv : e.Valid env s)
    (hc : CleanEvent env s e) (hal : ∀ accs i, e = .ix accs i → succeeded env s accs i = succeeded env t accs i) {P : Key}
    {p q : Pool} (hp : PoolAt env s.world P p) (hq : PoolAt env t.world P q) (hsch : SameSchedule p q) {d : Nat}
    (hδ : Apart s.now (fun _ => d) p q) {y y' : Mining}
    (hy : earningOn y' (midnight s.now) = earningOn y (midnight s.now) + d)
    (hle : (earningOn y (midnight s.now) : Int) ≤ totalOn p (midnight s.now)) :
    incomeBy env P y s e ≤ incomeBy env P y' t e + takesPart env P y' t e := by
  cases e <;> try exact Nat.zero_le _
  rename_i accs i
  have hal := hal accs i rfl
  simp only [incomeBy, takesPart, distributedBy, hp.2, hq.2, ← hal, ← hnow]
  by_cases hx : succeeded env s accs i = true
  · simp only [if_pos hx, incomeFrom]
    rw [← hsch.distributed accs s.now P i]
    by_cases h0 : 0 < distributedFrom accs s.now P p i
    · rw [if_pos h0]
      have hT : 0 < totalOn p (midnight s.now) := by
        unfold succeeded at hx
        split at hx
        · rename_i r hr
          exact distributed_pos hs hv hc (w' := r.1) (r := r.2) hr hp h0
        · cases hx
      have h3 := hδ _ (Nat.le_refl _)
      dsimp only at h3
      have h4 : (totalOn q (midnight s.now)).toNat = (totalOn p (midnight s.now)).toNat + d := by omega
      rw [h4, hy]
      exact part_le (by omega) (by omega) (Or.inr rfl)
    · have h0 : distributedFrom accs s.now P p i = 0 := by omega
      rw [h0]; simp
  · simp [hx]

theorem earning_more {y : Mining} (hb : total y.diffs ≤ y.share) (a x : Nat) :
    earningOn { y with stakeFromOthers := y.stakeFromOthers + a } x = earningOn y x + a := by
  have := dueBy_le_total y.diffs x
  simp only [earningOn]
  omega

/-- From two states that differ by stake delegated to the mining at `D`; this and the mining at `M` are then left alone. -/
theorem compare_pair (hi : env.PdaInjective) {s0 t1 t2 s1 s2 : Chain} {es0 es es' : List Event} {P M D V : Key}
    {q1 q2 p1 p2 : Pool} {m y y' : Mining} {a : Nat} (hg : Genesis env s0)
    (hro : RunsWith env (Orderly env P V) s0 es0 t1) (hre2 : Reachable env t2) (hnow : t1.now = t2.now)
    (hq1 : PoolAt env t1.world P q1) (hq2 : PoolAt env t2.world P q2)
    (hV : env.findVault P q1.rewardMint = some (V, q1.bump)) (hpl1 : 0 < (t1.world P).lamports)
    (hpl2 : 0 < (t2.world P).lamports) (hml1 : 0 < (t1.world M).lamports) (hml2 : 0 < (t2.world M).lamports)
    (hdl1 : 0 < (t1.world D).lamports) (hdl2 : 0 < (t2.world D).lamports) (hMD : M ≠ D)
    (hm1 : Member env t1.world P M m) (hm2 : MiningAt env t2.world M m)
    (hy1 : Member env t1.world P D y) (hy2 : MiningAt env t2.world D y') (hsch : SameSchedule q1 q2)
    (hap : Apart t1.now (fun _ => a) q1 q2) (hye : ∀ x, earningOn y' x = earningOn y x + a)
    (hi1 : m.index ≤ q1.index) (hi2 : m.index ≤ q2.index) (hj1 : y.index ≤ q1.index) (hj2 : y'.index ≤ q2.index)
    (hc : q2.cumulative = q1.cumulative) (hu : owed y q1.cumulative ≤ owed y' q2.cumulative)
    (hr1 : RunsWith env (fun s e => Orderly env P V s e ∧ RoomInPool env P s e ∧ Spares M e ∧ Spares D e) t1 es s1)
    (hr2 : RunsWith env (fun s e => CleanEvent env s e ∧ RoomInPool env P s e ∧ Spares M e ∧ Spares D e) t2 es' s2)
    (hal : Alike env SameEvent t1 t2 es es') (hn : s1.now < 2 ^ 64)
    (hp1' : PoolAt env s1.world P p1) (hp2' : PoolAt env s2.world P p2)
    (hroom1 : p1.cumulative.length < env.caps.index) (hroom2 : p2.cumulative.length < env.caps.index) :
    (MiningAt env s1.world M m ∧ MiningAt env s1.world D y) ∧ (MiningAt env s2.world M m ∧ MiningAt env s2.world D y') ∧
      owed m p1.cumulative + owed y p1.cumulative ≤ owed m p2.cumulative + owed y' p2.cumulative +
        (totalIn env (takesPart env P m) t2 es' + totalIn env (takesPart env P y') t2 es') ∧
      owed y p1.cumulative ≤ owed y' p2.cumulative + totalIn env (takesPart env P y') t2 es' := by
  have hre1 : Reachable env t1 := ⟨s0, _, hg, hro.weaken fun _ _ h => h.clean⟩
  obtain ⟨i1, i2⟩ := runs_income (hr1.weaken fun _ _ h => ⟨h.1.clean, h.2.2.1⟩) hre1 hm1.1 hml1 hq1 hpl1 hi1 hp1' hroom1
  obtain ⟨j1, j2⟩ := runs_income (hr2.weaken fun _ _ h => ⟨h.1, h.2.2.1⟩) hre2 hm2 hml2 hq2 hpl2 hi2 hp2' hroom2
  obtain ⟨k1, k2⟩ := runs_income (hr1.weaken fun _ _ h => ⟨h.1.clean, h.2.2.2⟩) hre1 hy1.1 hdl1 hq1 hpl1 hj1 hp1' hroom1
  obtain ⟨l1, l2⟩ := runs_income (hr2.weaken fun _ _ h => ⟨h.1, h.2.2.2⟩) hre2 hy2 hdl2 hq2 hpl2 hj2 hp2' hroom2
  have key : ∀ F G : Chain → Event → Nat, (∀ s w, F s (.ext w) = 0) →
      (∀ t u e x z, t.now = u.now → Wf env t.now t.world → e.Valid env t → CleanEvent env t e →
        (∀ accs i, e = .ix accs i → succeeded env t accs i = succeeded env u accs i) → PoolAt env t.world P x →
        PoolAt env u.world P z → SameSchedule x z → Apart t.now (fun _ => a) x z →
        (earningOn m (midnight t.now) + earningOn y (midnight t.now) : Int) ≤ totalOn x (midnight t.now) → F t e ≤ G u e) →
      totalIn env F t1 es ≤ totalIn env G t2 es' := by
    intro F G hF hFG
    refine runs_lockstep (P := P) (δ := fun _ => a) (J := fun t es => (∃ es0, RunsWith env (Orderly env P V) s0 es0 t) ∧
      (∃ q, PoolAt env t.world P q ∧ 0 < (t.world P).lamports ∧ q.rewardMint = q1.rewardMint ∧ q.bump = q1.bump) ∧
      (MiningAt env t.world M m ∧ 0 < (t.world M).lamports) ∧ (MiningAt env t.world D y ∧ 0 < (t.world D).lamports) ∧
      RunsWith env (fun s e => Orderly env P V s e ∧ RoomInPool env P s e ∧ Spares M e ∧ Spares D e) t es s1)
      hF ?_ ?_
      (hr1.weaken fun _ _ h => ⟨h.1.clean, h.2.1⟩) (hr2.weaken fun _ _ h => ⟨h.1, h.2.1⟩) hal
      ⟨⟨_, hro⟩, ⟨q1, hq1, hpl1, rfl, rfl⟩, ⟨hm1.1, hml1⟩, ⟨hy1.1, hdl1⟩, hr1⟩ hnow (reachable_wf hre1)
      (reachable_wf hre2) hq1 hq2 hpl1 hpl2 hsch hap
    · rintro t e es ⟨⟨es1, k1⟩, ⟨q, k2, k3, k4, k5⟩, ⟨k6, k7⟩, ⟨k8, k9⟩, k10⟩
      cases k10 with | cons v1 v2 v3 =>
      have hwt : Wf env t.now t.world := reachable_wf ⟨s0, _, hg, k1.weaken fun _ _ h => h.clean⟩
      obtain ⟨q', z1, z2, z3⟩ := apply_pool hwt v1 v2.1.clean k2 k3
      have hsp := z3.same_pool
      exact ⟨⟨_, k1.append (.cons v1 v2.1 (.nil _))⟩, ⟨q', z1, z2, hsp.rewardMint.trans k4, hsp.bump.trans k5⟩,
        spared_apply v1 v2.2.2.1 k6 k7, spared_apply v1 v2.2.2.2 k8 k9, v3⟩
    · rintro t u e es x z ⟨⟨es1, k1⟩, ⟨q, k2, k3, k4, k5⟩, ⟨k6, k7⟩, ⟨k8, k9⟩, k10⟩ hnow wt wu v1 v2 c1 c2 px pz sch hd hal
      obtain rfl := PoolAt.unique px k2
      refine hFG t u e x z hnow wt v1 c1.1 hal px pz sch hd ?_
      have := C10_total_stake_partial hi hg k1 (Nat.lt_of_le_of_lt (run_now_le k10) hn) px (by rw [k4, k5]; exact hV)
        (ks := [M, D]) (by simp [hMD]) (Nat.le_refl _)
      simpa [earningTotal, sumOver, ofMember_eq (⟨k6, hm1.2⟩ : Member env t.world P M m),
        ofMember_eq (⟨k8, hy1.2⟩ : Member env t.world P D y)] using this
  have both := key (fun t e => incomeBy env P m t e + incomeBy env P y t e)
    (fun t e => incomeBy env P m t e + incomeBy env P y' t e + (takesPart env P m t e + takesPart env P y' t e))
    (fun _ _ => rfl) fun t u e x z a1 a2 a3 a4 a5 a6 a7 a8 a9 a10 => income_pair a1 a2 a3 a4 a5 a6 a7 a8 a9 (hye _) a10
  have alone := key (incomeBy env P y) (fun t e => incomeBy env P y' t e + takesPart env P y' t e) (fun _ _ => rfl)
    fun t u e x z a1 a2 a3 a4 a5 a6 a7 a8 a9 a10 => income_delegate a1 a2 a3 a4 a5 a6 a7 a8 a9 (hye _) (by omega)
  rw [totalIn_add, totalIn_add, totalIn_add, totalIn_add] at both
  rw [totalIn_add] at alone
  refine ⟨⟨i1, k1⟩, ⟨j1, l1⟩, ?_, ?_⟩
  · rw [i2, j2, k2, l2, hc]
    rw [hc] at hu
    omega
  · omega

end Verif
