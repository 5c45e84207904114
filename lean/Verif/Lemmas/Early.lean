import Verif.Spec.Early
import Verif.Lemmas.Reduce
import Verif.Props.Reduce
import Verif.Props.Distribution
/-!
Two histories in which the same is done earlier or later.
-/

namespace Verif

open Spec

variable {env : Env}

/-- What a deposit does. -/
theorem deposit_changes {s : Chain} {accs rest : List AccountInfo} {P M A D : AccountInfo} {a : Nat} {l : LockupPeriod}
    {o d : Key} {w2 : World} {r2 : Option Nat} (hw : Wf env s.now s.world) (hs : RealSigners accs)
    (hacc : accs = P :: M :: A :: D :: rest) (h2 : exec env s.now s.world accs (.depositMining a l o d) = .ok (w2, r2))
    (hp2 : RoomInPool env P.key s (.ix accs (.depositMining a l o d))) {p : Pool} (hp : PoolAt env s.world P.key p) :
    ∃ (k n : Nat) (m : Mining) (p2 : Pool) (m2 : Mining), terms l = some (k, n) ∧ Member env s.world P.key M.key m ∧
      PoolAt env w2 P.key p2 ∧ Member env w2 P.key M.key m2 ∧ SameBudget p p2 ∧ SameConfig p p2 ∧
      Apart s.now (fun x => stakeWeight a k (midnight s.now + 86400 * n) x + if D.key = M.key then 0 else (a : Int)) p p2 ∧
      (RoomInMining env M.key s l → ∀ x, midnight s.now ≤ x →
        weightOn m2 x = weightOn m x + stakeWeight a k (midnight s.now + 86400 * n) x) ∧
      m2.stakeFromOthers = m.stakeFromOthers ∧ CreditedAs s.now p.cumulative m m2 ∧
      (∀ k, (w2 k).lamports = (s.world k).lamports) ∧
      (∀ k, k ≠ P.key → k ≠ M.key → k ≠ D.key → w2 k = s.world k) := by
  obtain ⟨P1, M1, A1, D1, rest1, k, n, e1, u1, ⟨m, q, hm, -, -, hmp, -⟩, c1⟩ := C17_deposit hw hs h2
  rw [hacc] at e1
  cases e1
  have hf : FirstIs accs P.key := by rw [hacc]; rfl
  obtain ⟨p1, a1, a2, a3, -, a4⟩ := c1.pools _ _ hp
  obtain ⟨m1, f1, f2, -, f3, f4, -⟩ := c1.minings _ _ hm
  have a4 := a4 rfl (hp2 hf p k n hp u1)
  have hcr : CreditedAs s.now p.cumulative m m1 ∧ ∀ k, (w2 k).lamports = (s.world k).lamports := by
    cases step_of_exec hw hs (by exact trivial) h2 with
    | @stake i P' M' A' D' p0 p' m0 m' d0 d' accs_eq op chk del quiet same sfo ok' sameDel eff shell =>
      obtain ⟨rest', e⟩ := accs_eq
      rw [hacc] at e; cases e
      obtain rfl := PoolAt.unique hp eff.pool
      obtain rfl := MiningAt.unique hm eff.mining
      obtain rfl := MiningAt.unique f1 eff.mining'
      exact ⟨(deposit_credit chk.good.ok chk.miningOk op).1, fun k => (shell k).2.1⟩
  simp only [ne_eq, not_true_eq_false, and_false, if_false] at f3
  refine ⟨k, n, m, p1, m1, u1, ⟨hm, hmp⟩, a1, ⟨f1, f2.2.1.trans hmp⟩, a2, a3, fun x hx => ?_, fun hr x hx => ?_, by omega,
    hcr.1, hcr.2, fun k k1 k2 k3 => c1.others k k1 k2 k3⟩
  · rw [a4 x hx]
  · exact f4 rfl (hr m k n hm u1) x hx

theorem stakeWeight_nonneg (a k e x : Nat) : 0 ≤ stakeWeight a k e x := by
  have q3 : (a : Int) * k = ((a * k : Nat) : Int) := by simp
  unfold stakeWeight
  rw [q3]
  split <;> omega

/-- The difference between two pools over a common history. -/
theorem runs_apart {P : Key} {δ : Nat → Int} {es es' : List Event} {s t s' t' : Chain} {p q : Pool}
    (hr1 : RunsWith env (Roomy env P) s es s') (hr2 : RunsWith env (Roomy env P) t es' t')
    (hal : Alike env SameEvent s t es es') (hnow : s.now = t.now)
    (hs : Wf env s.now s.world) (ht : Wf env t.now t.world) (hp : PoolAt env s.world P p) (hq : PoolAt env t.world P q)
    (hpl : 0 < (s.world P).lamports) (hql : 0 < (t.world P).lamports) (hsch : SameSchedule p q)
    (hδ : Apart s.now δ p q) :
    ∃ p' q', PoolAt env s'.world P p' ∧ PoolAt env t'.world P q' ∧ 0 < (s'.world P).lamports ∧ 0 < (t'.world P).lamports ∧
      s'.now = t'.now ∧ SameSchedule p' q' ∧ Apart s'.now δ p' q' := by
  induction es generalizing s t p q es' with
  | nil =>
    cases es' with
    | nil =>
      cases hr1
      cases hr2
      exact ⟨p, q, hp, hq, hpl, hql, hnow, hsch, hδ⟩
    | cons => exact hal.elim
  | cons e es ih =>
    cases es' with
    | nil => exact hal.elim
    | cons e' es' =>
    cases hr1 with | cons hv1 hc1 hr1 =>
    cases hr2 with | cons hv2 hc2 hr2 =>
    obtain ⟨hee, hgo, hal⟩ := hal
    obtain ⟨p', q', a1, b1, a2, b2, hn, hs', hd'⟩ := lockstep hnow hs ht hv1 hv2 hc1 hc2 hee hgo hp hq hpl hql hsch hδ
    exact ih hr1 hr2 hal hn (wf_apply hs hv1 hc1.1) (wf_apply ht hv2 hc2.1) a1 b1 a2 b2 hs' hd'

theorem spared_runs {k : Key} {C : Chain → Event → Prop} (hC : ∀ s e, C s e → Spares k e) {s s' : Chain} {es : List Event}
    (hr : RunsWith env C s es s') : ∀ {m : Mining}, MiningAt env s.world k m → 0 < (s.world k).lamports →
    MiningAt env s'.world k m ∧ 0 < (s'.world k).lamports := by
  induction hr with
  | nil s => exact fun hm hl => ⟨hm, hl⟩
  | cons hv hc _ ih =>
    intro m hm hl
    obtain ⟨a1, a2⟩ := spared_apply hv (hC _ _ hc) hm hl
    exact ih a1 a2

/-- A pool's history over a run. -/
theorem runs_history {C : Chain → Event → Prop} (hC : ∀ s e, C s e → CleanEvent env s e) {s s' : Chain} {es : List Event}
    {P : Key} {p p' : Pool} (hw : Wf env s.now s.world) (hr : RunsWith env C s es s') (hp : PoolAt env s.world P p)
    (hl : 0 < (s.world P).lamports) (hp' : PoolAt env s'.world P p') :
    p.cumulative.length ≤ p'.cumulative.length ∧ p.index ≤ p'.index := by
  obtain ⟨q, a1, a2, a3, -⟩ := C15_history_immutable hw (hr.weaken hC) hp hl
  obtain rfl := PoolAt.unique hp' a1
  exact ⟨a2.length_le, a3⟩

/-- A pool's mint and vault over a run. -/
theorem runs_config {C : Chain → Event → Prop} (hC : ∀ s e, C s e → CleanEvent env s e) {s s' : Chain} {es : List Event}
    {P : Key} {p p' : Pool} (hw : Wf env s.now s.world) (hr : RunsWith env C s es s') (hp : PoolAt env s.world P p)
    (hl : 0 < (s.world P).lamports) (hp' : PoolAt env s'.world P p') : p'.rewardMint = p.rewardMint ∧ p'.bump = p.bump := by
  obtain ⟨q, a1, -, a2⟩ := runs_pool hw (hr.weaken hC) hp hl (fun _ q => q.rewardMint = p.rewardMint ∧ q.bump = p.bump)
    ⟨rfl, rfl⟩ (by
      rintro s e q q' hw' hv hq ⟨i1, i2⟩ hev
      have := hev.same_pool
      exact ⟨this.rewardMint.trans i1, this.bump.trans i2⟩)
  obtain rfl := PoolAt.unique hp' a1
  exact a2

theorem Spec.Reachable.runs {s s' : Chain} {es : List Event} (h : Reachable env s) (hr : RunsWith env (CleanEvent env) s es s') :
    Reachable env s' := by
  obtain ⟨s0, es0, hg, h0⟩ := h
  exact ⟨s0, _, hg, RunsWith.append h0 hr⟩

theorem totalIn_append (F : Chain → Event → Nat) {C : Chain → Event → Prop} {s t : Chain} {es fs : List Event}
    (hr : RunsWith env C s es t) : totalIn env F s (es ++ fs) = totalIn env F s es + totalIn env F t fs := by
  induction hr with
  | nil s => simp [totalIn]
  | cons _ _ _ ih => simp only [List.cons_append, totalIn, ih]; omega

end Verif
