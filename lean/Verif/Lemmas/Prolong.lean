import Verif.Spec.Prolong
import Verif.Lemmas.Early
import Verif.Props.Stake
/-!
Two histories of which one has the extension of a stake.
-/

namespace Verif

open Spec

variable {env : Env}

/-- Income compared where the totals grew by at most as much as the stake. -/
theorem income_more {s t : Chain} {e : Event} (hnow : s.now = t.now) (hs : Wf env s.now s.world) (ht : Wf env t.now t.world)
    (hv : e.Valid env s) (hv' : e.Valid env t) (hcl : CleanEvent env s e) (hcl' : CleanEvent env t e)
    (hal : ∀ accs i, e = .ix accs i → succeeded env s accs i = succeeded env t accs i) {P : Key}
    {p q : Pool} (hp : PoolAt env s.world P p) (hq : PoolAt env t.world P q) (hsch : SameSchedule p q) {δ c : Nat → Int}
    (hδ : Apart s.now δ p q) {m n : Mining} (hδc : δ (midnight s.now) ≤ c (midnight s.now)) (hpos : 0 ≤ c (midnight s.now))
    (hw : weightOn n (midnight s.now) = weightOn m (midnight s.now) + c (midnight s.now))
    (hf : n.stakeFromOthers = m.stakeFromOthers) (hle : (earningOn m (midnight s.now) : Int) ≤ totalOn p (midnight s.now)) :
    incomeBy env P m s e ≤ incomeBy env P n t e + takesPart env P n t e := by
  cases e <;> try exact Nat.zero_le _
  rename_i accs i
  have hal := hal accs i rfl
  simp only [incomeBy, takesPart, distributedBy, hp.2, hq.2, ← hal, ← hnow]
  by_cases hx : succeeded env s accs i = true
  · simp only [if_pos hx, incomeFrom]
    rw [← hsch.distributed accs s.now P i]
    by_cases h0 : 0 < distributedFrom accs s.now P p i
    · rw [if_pos h0]
      have hT : 0 < totalOn p (midnight s.now) := by
        unfold succeeded at hx
        split at hx
        · rename_i r hr
          exact distributed_pos hs hv hcl (w' := r.1) (r := r.2) hr hp h0
        · cases hx
      have hT' : 0 < totalOn q (midnight s.now) := by
        rw [hal] at hx
        unfold succeeded at hx
        split at hx
        · rename_i r hr
          rw [hnow]
          rw [hsch.distributed accs s.now P i, hnow] at h0
          exact distributed_pos ht hv' hcl' (w' := r.1) (r := r.2) hr hq h0
        · cases hx
      have h3 := hδ _ (Nat.le_refl _)
      have h4 : (totalOn q (midnight s.now)).toNat ≤
          (totalOn p (midnight s.now)).toNat + (c (midnight s.now)).toNat := by omega
      have h5 : 0 < (totalOn q (midnight s.now)).toNat := by omega
      have h6 := earning_apart (m := m) (n := n) (x := midnight s.now) (d := (c (midnight s.now)).toNat) (by omega) hf
      have h7 := part_le (R := 10 ^ 16 * distributedFrom accs s.now P p i) (T := (totalOn p (midnight s.now)).toNat)
        (by omega) (by omega) h6
      exact Nat.le_trans h7 (Nat.add_le_add_right (Nat.mul_le_mul_right _ (Nat.div_le_div_left h4 h5)) _)
    · have h0 : distributedFrom accs s.now P p i = 0 := by omega
      rw [h0]; simp
  · simp [hx]

/-- From two states that differ by some stake of a mining, which is then left alone; the total of the pool grew by at most as much. -/
theorem compare_most (hi : env.PdaInjective) {s0 t1 t2 s1 s2 : Chain} {es0 es es' : List Event} {P M V : Key} {q1 q2 p1 p2 : Pool}
    {m1 m2 : Mining} {δ c : Nat → Int} {r : Nat} (hg : Genesis env s0) (hro : RunsWith env (Orderly env P V) s0 es0 t1)
    (hre2 : Reachable env t2) (hnow : t1.now = t2.now) (hq1 : PoolAt env t1.world P q1) (hq2 : PoolAt env t2.world P q2)
    (hV : env.findVault P q1.rewardMint = some (V, q1.bump)) (hpl1 : 0 < (t1.world P).lamports)
    (hpl2 : 0 < (t2.world P).lamports) (hml1 : 0 < (t1.world M).lamports) (hml2 : 0 < (t2.world M).lamports)
    (hm1 : Member env t1.world P M m1) (hm2 : MiningAt env t2.world M m2) (hsch : SameSchedule q1 q2)
    (hap : Apart t1.now δ q1 q2) (hδc : ∀ x, midnight t1.now ≤ x → δ x ≤ c x) (hc : ∀ x, midnight t1.now ≤ x → 0 ≤ c x)
    (hwt : ∀ x, midnight t1.now ≤ x → weightOn m2 x = weightOn m1 x + c x) (hsfo : m2.stakeFromOthers = m1.stakeFromOthers)
    (hi1 : m1.index ≤ q1.index) (hi2 : m2.index ≤ q2.index) (hu : owed m1 q1.cumulative ≤ owed m2 q2.cumulative + r)
    (hr1 : RunsWith env (fun s e => Orderly env P V s e ∧ RoomInPool env P s e ∧ Spares M e) t1 es s1)
    (hr2 : RunsWith env (fun s e => CleanEvent env s e ∧ RoomInPool env P s e ∧ Spares M e) t2 es' s2)
    (hal : Alike env SameEvent t1 t2 es es') (hn : s1.now < 2 ^ 64)
    (hp1' : PoolAt env s1.world P p1) (hp2' : PoolAt env s2.world P p2)
    (hroom1 : p1.cumulative.length < env.caps.index) (hroom2 : p2.cumulative.length < env.caps.index) :
    MiningAt env s1.world M m1 ∧ MiningAt env s2.world M m2 ∧
      owed m1 p1.cumulative ≤ owed m2 p2.cumulative + totalIn env (takesPart env P m2) t2 es' + r := by
  have hre1 : Reachable env t1 := ⟨s0, _, hg, hro.weaken fun _ _ h => h.clean⟩
  obtain ⟨i1, i2⟩ := runs_income (hr1.weaken fun _ _ h => ⟨h.1.clean, h.2.2⟩) hre1 hm1.1 hml1 hq1 hpl1 hi1 hp1' hroom1
  obtain ⟨j1, j2⟩ := runs_income (hr2.weaken fun _ _ h => ⟨h.1, h.2.2⟩) hre2 hm2 hml2 hq2 hpl2 hi2 hp2' hroom2
  refine ⟨i1, j1, ?_⟩
  have key : totalIn env (incomeBy env P m1) t1 es ≤
      totalIn env (fun t e => incomeBy env P m2 t e + takesPart env P m2 t e) t2 es' := by
    refine runs_lockstep (P := P) (δ := δ) (J := fun t es => (∃ es0, RunsWith env (Orderly env P V) s0 es0 t) ∧
      (∃ q, PoolAt env t.world P q ∧ 0 < (t.world P).lamports ∧ q.rewardMint = q1.rewardMint ∧ q.bump = q1.bump) ∧
      (MiningAt env t.world M m1 ∧ 0 < (t.world M).lamports) ∧ t1.now ≤ t.now ∧
      RunsWith env (fun s e => Orderly env P V s e ∧ RoomInPool env P s e ∧ Spares M e) t es s1)
      (fun _ _ => rfl) ?_ ?_
      (hr1.weaken fun _ _ h => ⟨h.1.clean, h.2.1⟩) (hr2.weaken fun _ _ h => ⟨h.1, h.2.1⟩) hal
      ⟨⟨_, hro⟩, ⟨q1, hq1, hpl1, rfl, rfl⟩, ⟨hm1.1, hml1⟩, Nat.le_refl _, hr1⟩ hnow (reachable_wf hre1)
      (reachable_wf hre2) hq1 hq2 hpl1 hpl2 hsch hap
    · rintro t e es ⟨⟨es1, k1⟩, ⟨q, k2, k3, k4, k5⟩, ⟨k6, k7⟩, k8, k9⟩
      cases k9 with | cons v1 v2 v3 =>
      have hwt : Wf env t.now t.world := reachable_wf ⟨s0, _, hg, k1.weaken fun _ _ h => h.clean⟩
      obtain ⟨q', z1, z2, z3⟩ := apply_pool hwt v1 v2.1.clean k2 k3
      have hsp := z3.same_pool
      exact ⟨⟨_, k1.append (.cons v1 v2.1 (.nil _))⟩, ⟨q', z1, z2, hsp.rewardMint.trans k4, hsp.bump.trans k5⟩,
        spared_apply v1 v2.2.2 k6 k7, Nat.le_trans k8 (run_now_le (C := fun _ _ => True) (.cons v1 trivial (.nil _))), v3⟩
    · rintro t u e es x y ⟨⟨es1, k1⟩, ⟨q, k2, k3, k4, k5⟩, ⟨k6, k7⟩, k8, k9⟩ hnow wt wu v1 v2 c1 c2 px py sch hd hal
      obtain rfl := PoolAt.unique px k2
      have hmid : midnight t1.now ≤ midnight t.now := by simp only [midnight]; omega
      refine income_more hnow wt wu v1 v2 c1.1 c2.1 hal px py sch hd (hδc _ hmid) (hc _ hmid) (hwt _ hmid) hsfo ?_
      have := C10_total_stake_partial hi hg k1 (Nat.lt_of_le_of_lt (run_now_le k9) hn) px (by rw [k4, k5]; exact hV)
        (ks := [M]) (by simp) (Nat.le_refl _)
      simpa [earningTotal, sumOver, ofMember_eq (⟨k6, hm1.2⟩ : Member env t.world P M m1)] using this
  rw [totalIn_add] at key
  omega

theorem stakeWeight_le {a k e x : Nat} (hk : 1 ≤ k) : stakeWeight a k e x ≤ (a * k : Int) := by
  have q3 : (a : Int) * k = ((a * k : Nat) : Int) := by simp
  have : a * 1 ≤ a * k := Nat.mul_le_mul_left _ hk
  unfold stakeWeight
  rw [q3]
  split <;> omega

theorem terms_one {l : LockupPeriod} {k n : Nat} (h : terms l = some (k, n)) : 1 ≤ k := by
  cases l <;> simp [terms] at h <;> omega

/-- What an extension does. -/
theorem extend_changes {s : Chain} {accs rest : List AccountInfo} {P M A D : AccountInfo} {a b ts : Nat} {old new : LockupPeriod}
    {o d : Key} {w2 : World} {r2 : Option Nat} (hw : Wf env s.now s.world) (hs : RealSigners accs)
    (hacc : accs = P :: M :: A :: D :: rest)
    (h2 : exec env s.now s.world accs (.extendStake old new ts b a o d) = .ok (w2, r2))
    (hp2 : RoomInPool env P.key s (.ix accs (.extendStake old new ts b a o d))) {p : Pool} (hp : PoolAt env s.world P.key p) :
    ∃ (k n k' n' : Nat) (m : Mining) (p2 : Pool) (m2 : Mining), terms old = some (k, n) ∧ terms new = some (k', n') ∧
      Member env s.world P.key M.key m ∧
      PoolAt env w2 P.key p2 ∧ Member env w2 P.key M.key m2 ∧ SameBudget p p2 ∧ SameConfig p p2 ∧
      Apart s.now (fun x => - (if old ≠ .flex ∧ s.now < midnight ts + 86400 * n then (b * k : Int)
          else stakeWeight b k (midnight ts + 86400 * n) x) + stakeWeight (b + a) k' (midnight s.now + 86400 * n') x +
        if D.key = M.key then 0 else (a : Int)) p p2 ∧
      (RoomInMining env M.key s new → ∀ x, midnight s.now ≤ x → weightOn m2 x = weightOn m x +
        (- stakeWeight b k (midnight ts + 86400 * n) x + stakeWeight (b + a) k' (midnight s.now + 86400 * n') x)) ∧
      m2.stakeFromOthers = m.stakeFromOthers ∧ CreditedAs s.now p.cumulative m m2 ∧
      (∀ k, (w2 k).lamports = (s.world k).lamports) ∧
      (∀ k, k ≠ P.key → k ≠ M.key → k ≠ D.key → w2 k = s.world k) := by
  obtain ⟨P1, M1, A1, D1, rest1, k, n, k', n', e1, u0, u1, ⟨m, q, hm, -, -, hmp, -⟩, c1, -⟩ := C22_extend_partial hw hs h2
  rw [hacc] at e1
  cases e1
  have hf : FirstIs accs P.key := by rw [hacc]; rfl
  obtain ⟨p1, a1, a2, a3, -, a4⟩ := c1.pools _ _ hp
  obtain ⟨m1, f1, f2, -, f3, f4, -⟩ := c1.minings _ _ hm
  have a4 := a4 rfl (hp2 hf p k' n' hp u1)
  have hcr : CreditedAs s.now p.cumulative m m1 ∧ ∀ k, (w2 k).lamports = (s.world k).lamports := by
    cases step_of_exec hw hs (by exact trivial) h2 with
    | @stake i P' M' A' D' p0 p' m0 m' d0 d' accs_eq op chk del quiet same sfo ok' sameDel eff shell =>
      obtain ⟨rest', e⟩ := accs_eq
      rw [hacc] at e; cases e
      obtain rfl := PoolAt.unique hp eff.pool
      obtain rfl := MiningAt.unique hm eff.mining
      obtain rfl := MiningAt.unique f1 eff.mining'
      exact ⟨(extend_credit chk.good.ok chk.miningOk (fun x hx => (del x hx).ok) op).1, fun k => (shell k).2.1⟩
  simp only [ne_eq, not_true_eq_false, and_false, if_false] at f3
  refine ⟨k, n, k', n', m, p1, m1, u0, u1, ⟨hm, hmp⟩, a1, ⟨f1, f2.2.1.trans hmp⟩, a2, a3, fun x hx => ?_, fun hr x hx => ?_, by omega,
    hcr.1, hcr.2, fun k k1 k2 k3 => c1.others k k1 k2 k3⟩
  · rw [a4 x hx]
  · exact f4 rfl (hr m k' n' hm u1) x hx

end Verif
