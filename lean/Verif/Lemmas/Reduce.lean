import Verif.Spec.Reduce
import Verif.Lemmas.Incentive
import Verif.Props.Solvency
/-!
Two histories of which one has less stake, taken away by a withdrawal or a slash.
-/

namespace Verif

open Spec

variable {env : Env}

/-- From two states that differ by some stake of a mining, which is then left alone. -/
theorem compare_more (hi : env.PdaInjective) {s0 t1 t2 s1 s2 : Chain} {es0 es es' : List Event} {P M V : Key} {q1 q2 p1 p2 : Pool}
    {m1 m2 : Mining} {c : Nat → Int} {r : Nat} (hg : Genesis env s0) (hro : RunsWith env (Orderly env P V) s0 es0 t1)
    (hre2 : Reachable env t2) (hnow : t1.now = t2.now) (hq1 : PoolAt env t1.world P q1) (hq2 : PoolAt env t2.world P q2)
    (hV : env.findVault P q1.rewardMint = some (V, q1.bump)) (hpl1 : 0 < (t1.world P).lamports)
    (hpl2 : 0 < (t2.world P).lamports) (hml1 : 0 < (t1.world M).lamports) (hml2 : 0 < (t2.world M).lamports)
    (hm1 : Member env t1.world P M m1) (hm2 : MiningAt env t2.world M m2) (hsch : SameSchedule q1 q2)
    (hap : Apart t1.now c q1 q2) (hc : ∀ x, midnight t1.now ≤ x → 0 ≤ c x)
    (hwt : ∀ x, midnight t1.now ≤ x → weightOn m2 x = weightOn m1 x + c x) (hsfo : m2.stakeFromOthers = m1.stakeFromOthers)
    (hi1 : m1.index ≤ q1.index) (hi2 : m2.index ≤ q2.index) (hu : owed m1 q1.cumulative ≤ owed m2 q2.cumulative + r)
    (hr1 : RunsWith env (fun s e => Orderly env P V s e ∧ RoomInPool env P s e ∧ Spares M e) t1 es s1)
    (hr2 : RunsWith env (fun s e => CleanEvent env s e ∧ RoomInPool env P s e ∧ Spares M e) t2 es' s2)
    (hal : Alike env SameEvent t1 t2 es es') (hn : s1.now < 2 ^ 64)
    (hp1' : PoolAt env s1.world P p1) (hp2' : PoolAt env s2.world P p2)
    (hroom1 : p1.cumulative.length < env.caps.index) (hroom2 : p2.cumulative.length < env.caps.index) :
    MiningAt env s1.world M m1 ∧ MiningAt env s2.world M m2 ∧
      owed m1 p1.cumulative ≤ owed m2 p2.cumulative + totalIn env (takesPart env P m2) t2 es' + r := by
  have hre1 : Reachable env t1 := ⟨s0, _, hg, hro.weaken fun _ _ h => h.clean⟩
  obtain ⟨i1, i2⟩ := runs_income (hr1.weaken fun _ _ h => ⟨h.1.clean, h.2.2⟩) hre1 hm1.1 hml1 hq1 hpl1 hi1 hp1' hroom1
  obtain ⟨j1, j2⟩ := runs_income (hr2.weaken fun _ _ h => ⟨h.1, h.2.2⟩) hre2 hm2 hml2 hq2 hpl2 hi2 hp2' hroom2
  refine ⟨i1, j1, ?_⟩
  have key : totalIn env (incomeBy env P m1) t1 es ≤
      totalIn env (fun t e => incomeBy env P m2 t e + takesPart env P m2 t e) t2 es' := by
    refine runs_lockstep (P := P) (δ := c) (J := fun t es => (∃ es0, RunsWith env (Orderly env P V) s0 es0 t) ∧
      (∃ q, PoolAt env t.world P q ∧ 0 < (t.world P).lamports ∧ q.rewardMint = q1.rewardMint ∧ q.bump = q1.bump) ∧
      (MiningAt env t.world M m1 ∧ 0 < (t.world M).lamports) ∧ t1.now ≤ t.now ∧
      RunsWith env (fun s e => Orderly env P V s e ∧ RoomInPool env P s e ∧ Spares M e) t es s1)
      (fun _ _ => rfl) ?_ ?_
      (hr1.weaken fun _ _ h => ⟨h.1.clean, h.2.1⟩) (hr2.weaken fun _ _ h => ⟨h.1, h.2.1⟩) hal
      ⟨⟨_, hro⟩, ⟨q1, hq1, hpl1, rfl, rfl⟩, ⟨hm1.1, hml1⟩, Nat.le_refl _, hr1⟩ hnow (reachable_wf hre1)
      (reachable_wf hre2) hq1 hq2 hpl1 hpl2 hsch hap
    · rintro t e es ⟨⟨es1, k1⟩, ⟨q, k2, k3, k4, k5⟩, ⟨k6, k7⟩, k8, k9⟩
      cases k9 with | cons v1 v2 v3 =>
      have hwt : Wf env t.now t.world := reachable_wf ⟨s0, _, hg, k1.weaken fun _ _ h => h.clean⟩
      obtain ⟨q', z1, z2, z3⟩ := apply_pool hwt v1 v2.1.clean k2 k3
      have hsp := z3.same_pool
      exact ⟨⟨_, k1.append (.cons v1 v2.1 (.nil _))⟩, ⟨q', z1, z2, hsp.rewardMint.trans k4, hsp.bump.trans k5⟩,
        spared_apply v1 v2.2.2 k6 k7, Nat.le_trans k8 (run_now_le (C := fun _ _ => True) (.cons v1 trivial (.nil _))), v3⟩
    · rintro t u e es x y ⟨⟨es1, k1⟩, ⟨q, k2, k3, k4, k5⟩, ⟨k6, k7⟩, k8, k9⟩ hnow wt wu v1 v2 c1 c2 px py sch hd hal
      obtain rfl := PoolAt.unique px k2
      have hmid : midnight t1.now ≤ midnight t.now := by simp only [midnight]; omega
      refine income_le hnow wt v1 c1.1 hal px py sch hd (hc _ hmid) (hwt _ hmid) hsfo ?_
      have := C10_total_stake_partial hi hg k1 (Nat.lt_of_le_of_lt (run_now_le k9) hn) px (by rw [k4, k5]; exact hV)
        (ks := [M]) (by simp) (Nat.le_refl _)
      simpa [earningTotal, sumOver, ofMember_eq (⟨k6, hm1.2⟩ : Member env t.world P M m1)] using this
  rw [totalIn_add] at key
  omega

/-- From two states that differ by some stake of others. -/
theorem compare_others {t1 t2 s1 s2 : Chain} {es es' : List Event} {P K : Key} {q1 q2 p1 p2 : Pool}
    {m : Mining} {c : Nat → Int} (hre1 : Reachable env t1) (hre2 : Reachable env t2) (hnow : t1.now = t2.now)
    (hq1 : PoolAt env t1.world P q1) (hq2 : PoolAt env t2.world P q2) (hpl1 : 0 < (t1.world P).lamports)
    (hpl2 : 0 < (t2.world P).lamports) (hml1 : 0 < (t1.world K).lamports) (hml2 : 0 < (t2.world K).lamports)
    (hm1 : MiningAt env t1.world K m) (hm2 : MiningAt env t2.world K m) (hsch : SameSchedule q1 q2)
    (hap : Apart t1.now c q1 q2) (hc : ∀ x, midnight t1.now ≤ x → 0 ≤ c x)
    (hi1 : m.index ≤ q1.index) (hi2 : m.index ≤ q2.index)
    (hu : owed m q2.cumulative ≤ owed m q1.cumulative)
    (hr1 : RunsWith env (fun s e => CleanEvent env s e ∧ RoomInPool env P s e ∧ Spares K e) t1 es s1)
    (hr2 : RunsWith env (fun s e => CleanEvent env s e ∧ RoomInPool env P s e ∧ Spares K e) t2 es' s2)
    (hal : Alike env SameEvent t1 t2 es es')
    (hp1' : PoolAt env s1.world P p1) (hp2' : PoolAt env s2.world P p2)
    (hroom1 : p1.cumulative.length < env.caps.index) (hroom2 : p2.cumulative.length < env.caps.index) :
    MiningAt env s1.world K m ∧ MiningAt env s2.world K m ∧ owed m p2.cumulative ≤ owed m p1.cumulative := by
  obtain ⟨i1, i2⟩ := runs_income (hr1.weaken fun _ _ h => ⟨h.1, h.2.2⟩) hre1 hm1 hml1 hq1 hpl1 hi1 hp1' hroom1
  obtain ⟨j1, j2⟩ := runs_income (hr2.weaken fun _ _ h => ⟨h.1, h.2.2⟩) hre2 hm2 hml2 hq2 hpl2 hi2 hp2' hroom2
  refine ⟨i1, j1, ?_⟩
  have key : totalIn env (incomeBy env P m) t2 es' ≤ totalIn env (incomeBy env P m) t1 es := by
    refine runs_lockstep (P := P) (δ := fun x => - c x) (J := fun t _ => t1.now ≤ t.now) (fun _ _ => rfl)
      ?_ ?_
      (hr2.weaken fun _ _ h => ⟨h.1, h.2.1⟩) (hr1.weaken fun _ _ h => ⟨h.1, h.2.1⟩) hal.symm (Nat.le_of_eq hnow)
      hnow.symm (reachable_wf hre2)
      (reachable_wf hre1) hq2 hq1 hpl2 hpl1 ⟨hsch.avail.symm, hsch.ends.symm, hsch.dates.symm⟩ ?_
    · intro t e es h
      refine Nat.le_trans h ?_
      cases e with
      | ix accs i => simp only [Chain.apply]; split <;> exact Nat.le_refl _
      | tick d => exact Nat.le_add_right _ _
      | _ => exact Nat.le_refl _
    · intro t u e es x y hle hnow wt wu v1 v2 c1 c2 px py sch hd hal
      refine income_ge hnow wu v2 c2.1 hal px py sch hd ?_
      have hmid : midnight t1.now ≤ midnight t.now := by simp only [midnight]; omega
      have := hc _ hmid
      omega
    · intro x hx
      rw [← hnow] at hx
      have := hap x hx
      dsimp only
      omega
  rw [i2, j2]
  omega

/-- The pool at `P` has lost the stake `g`. -/
structure PoolTaken (env : Env) (s t : Chain) (P : Key) (p : Pool) (g : Nat → Int) : Prop where
  now : t.now = s.now
  pool : ∃ p', PoolAt env t.world P p' ∧ SameBudget p p' ∧ SameConfig p p' ∧
    ∀ x, midnight s.now ≤ x → totalOn p' x = totalOn p x - g x
  lamports : ∀ k, (t.world k).lamports = (s.world k).lamports

/-- The mining at `M` has lost the stake `f`. -/
def MiningTaken (env : Env) (s t : Chain) (P M : Key) (p : Pool) (m : Mining) (f : Nat → Int) : Prop :=
  ∃ m', Member env t.world P M m' ∧ m'.stakeFromOthers = m.stakeFromOthers ∧
    (∀ x, midnight s.now ≤ x → weightOn m' x = weightOn m x - f x) ∧
    (CreditedAs s.now p.cumulative m m' ∨ m' = m)

theorem nothing_taken {s : Chain} {P : Key} {p : Pool} (hp : PoolAt env s.world P p) :
    PoolTaken env s s P p (fun _ => 0) :=
  ⟨rfl, ⟨p, hp, ⟨rfl, rfl, rfl, rfl⟩, by simp [SameConfig], fun _ _ => by omega⟩, fun _ => rfl⟩

theorem nothing_taken_mining {s : Chain} {P M : Key} {p : Pool} {m : Mining} (hm : Member env s.world P M m) :
    MiningTaken env s s P M p m (fun _ => 0) :=
  ⟨m, hm, rfl, fun _ _ => (Int.sub_zero _).symm, Or.inr rfl⟩

theorem takenOn_nonneg (i : Ix) (x : Nat) : 0 ≤ takenOn i x := by
  cases i <;> simp only [takenOn] <;> try omega
  unfold slashWeight
  split
  · omega
  · split <;> omega

/-- A successful withdrawal or slash. -/
theorem taken_exec {s : Chain} {accs : List AccountInfo} {i : Ix} {w' : World} {r : Option Nat} {P : Key} {p : Pool}
    (hw : Wf env s.now s.world) (hs : RealSigners accs) (ht : takesStake i = true) (hP : poolArg accs i = some P)
    (hp : PoolAt env s.world P p) (h : exec env s.now s.world accs i = .ok (w', r)) :
    ∃ M m g, miningArg accs i = some M ∧ Member env s.world P M m ∧ TakenFromPool accs i g ∧
      PoolTaken env s ⟨s.now, w'⟩ P p g ∧ ∃ m', Member env w' P M m' ∧ m'.stakeFromOthers = m.stakeFromOthers ∧
      (∀ x, midnight s.now ≤ x → weightOn m' x = weightOn m x - takenOn i x) ∧ CreditedAs s.now p.cumulative m m' := by
  have hc : NotPoolAsMining env s.world accs i := by
    cases i <;> first | exact trivial | cases ht
  have step := step_of_exec hw hs hc h
  cases i <;> try (cases ht; done)
  case withdrawMining a o d =>
    obtain ⟨P1, M1, A1, D1, rest, e1, ⟨m, q, hm, -, -, hmp, -⟩, c1, -⟩ := C20_withdraw hw hs h
    subst e1
    cases hP
    obtain ⟨p1, a1, a2, a3, -, a4⟩ := c1.pools _ _ hp
    obtain ⟨m1, f1, f2, -, f3, f4, -⟩ := c1.minings _ _ hm
    have hcr : CreditedAs s.now p.cumulative m m1 ∧ ∀ k, (w' k).lamports = (s.world k).lamports := by
      cases step with
      | @stake i P' M' A' D' p0 p' m0 m' d0 d' accs_eq op chk del quiet same sfo ok' sameDel eff shell =>
        obtain ⟨rest', e⟩ := accs_eq
        cases e
        obtain rfl := PoolAt.unique hp eff.pool
        obtain rfl := MiningAt.unique hm eff.mining
        obtain rfl := MiningAt.unique f1 eff.mining'
        exact ⟨(withdraw_credit chk.good.ok op).1, fun k => (shell k).2.1⟩
    simp only [ne_eq, not_true_eq_false, and_false, if_false] at f3
    refine ⟨M1.key, m, fun _ => a + if D1.key = M1.key then 0 else (a : Int), rfl, ⟨hm, hmp⟩, ⟨?_, ?_⟩,
      ⟨rfl, ⟨p1, a1, a2, a3, fun x hx => ?_⟩, hcr.2⟩, m1, ⟨f1, f2.2.1.trans hmp⟩, by omega, fun x hx => ?_, hcr.1⟩
    · rintro ⟨D, e1, e2⟩ x
      cases e1
      have : ¬ D1.key = M1.key := fun h => e2 (by show some M1.key = some D1.key; rw [h])
      simp only [if_neg this, takenOn]
    · intro hn x
      have : D1.key = M1.key := Classical.byContradiction fun h => hn ⟨D1.key, rfl, fun h' => h (Option.some.inj h').symm⟩
      simp only [if_pos this, takenOn]; omega
    · rw [a4 rfl trivial x hx]; omega
    · rw [f4 rfl trivial x hx]; simp only [takenOn]; omega
  case slash o n mu ex =>
    obtain ⟨A1, P1, M1, rest, e1, ⟨m, q, hm, -, -, hmp, -⟩, c1, -⟩ := C21_slash hw hs h
    subst e1
    cases hP
    obtain ⟨p1, a1, a2, a3, -, a4⟩ := c1.pools _ _ hp
    obtain ⟨m1, f1, f2, -, f3, f4, -⟩ := c1.minings _ _ hm
    have hcr : CreditedAs s.now p.cumulative m m1 ∧ ∀ k, (w' k).lamports = (s.world k).lamports := by
      cases step with
      | @stake i P' M' A' D' p0 p' m0 m' d0 d' accs_eq op chk del quiet same sfo ok' sameDel eff shell =>
        obtain ⟨rfl, rest', e⟩ := accs_eq
        cases e
        obtain rfl := PoolAt.unique hp eff.pool
        obtain rfl := MiningAt.unique hm eff.mining
        obtain rfl := MiningAt.unique f1 eff.mining'
        exact ⟨slash_credit chk.good.ok chk.miningOk op.1, fun k => (shell k).2.1⟩
    simp only [ne_eq, not_true_eq_false, and_false, if_false] at f3
    refine ⟨M1.key, m, slashWeight n mu ex, rfl, ⟨hm, hmp⟩, ⟨?_, fun _ x => rfl⟩,
      ⟨rfl, ⟨p1, a1, a2, a3, fun x hx => ?_⟩, hcr.2⟩, m1, ⟨f1, f2.2.1.trans hmp⟩, by omega, fun x hx => ?_, hcr.1⟩
    · rintro ⟨D, e1, e2⟩
      cases e1
    · rw [a4 rfl trivial x hx]; omega
    · rw [f4 rfl trivial x hx]; simp only [takenOn]; omega

/-- A refreshed mining with less stake is owed at most what it was. -/
theorem credited_owed_le {cum : SMap} (hc : History cum) {now : Nat} {m m' : Mining} (hm : MiningOk m)
    (hcr : CreditedAs now cum m m') (hf : m'.stakeFromOthers = m.stakeFromOthers) {f : Nat → Int} (hf0 : ∀ x, 0 ≤ f x)
    (hw : ∀ x, midnight now ≤ x → weightOn m' x = weightOn m x - f x) : owed m' cum ≤ owed m cum := by
  obtain ⟨m1, h1, h2, h3⟩ := hcr
  obtain ⟨g1, -, g3, -, g5, g6⟩ := refresh_owed hc hm h1
  refine Nat.le_trans (owed_le_now hc g3 h3 h2.symm fun x hx => ?_) g1
  rw [g6 x (by rw [bod_eq_midnight]; exact hx)]
  have := hw x hx
  have := hf0 x
  simp only [earningOn, weightOn] at *
  omega

theorem credited_index {cum : SMap} (hc : History cum) {now : Nat} {m m' : Mining} (hm : MiningOk m)
    (hcr : CreditedAs now cum m m') : m.index ≤ indexBefore cum now ∧ m'.index = indexBefore cum now := by
  obtain ⟨m1, h1, -, h3⟩ := hcr
  obtain ⟨-, -, g3, g4, -⟩ := refresh_owed hc hm h1
  exact ⟨g4, h3.trans g3⟩

/-- Of two refreshed minings the one with less stake is owed at most as much. -/
theorem credited_owed_both {cum : SMap} (hc : History cum) {now : Nat} {m m1 m2 : Mining} (hm : MiningOk m)
    (h1 : CreditedAs now cum m m1) (h2 : CreditedAs now cum m m2) (hf : m2.stakeFromOthers = m1.stakeFromOthers)
    {c : Nat → Int} (hc0 : ∀ x, midnight now ≤ x → 0 ≤ c x)
    (hw : ∀ x, midnight now ≤ x → weightOn m2 x = weightOn m1 x + c x) : owed m1 cum ≤ owed m2 cum := by
  have i1 := (credited_index hc hm h1).2
  have i2 := (credited_index hc hm h2).2
  obtain ⟨x, a1, a2, a3⟩ := h1
  obtain ⟨y, b1, b2, b3⟩ := h2
  rw [a1] at b1; cases b1
  refine owed_le_now hc i2 (i1.trans i2.symm) (by rw [a2, b2]) fun x hx => ?_
  have := hw x hx
  have := hc0 x hx
  simp only [earningOn, weightOn] at *
  omega

theorem takenFromPool_nonneg {accs : List AccountInfo} {i : Ix} {g : Nat → Int} (h : TakenFromPool accs i g) (x : Nat) :
    0 ≤ g x := by
  have := takenOn_nonneg i x
  by_cases hd : Delegated accs i
  · rw [h.1 hd]; omega
  · rw [h.2 hd]; omega

/-- The milder event. -/
theorem taken_event {s : Chain} {P : Key} {p : Pool} {accs : List AccountInfo} {i : Ix} {e : Event} {g : Nat → Int}
    (hw : Wf env s.now s.world) (hp : PoolAt env s.world P p) (hv : e.Valid env s) (hl : TakesLess P s accs i e)
    (hg : TakenFromPool accs i g) :
    ∃ g', (∀ x, midnight s.now ≤ x → g' x ≤ g x) ∧ PoolTaken env s (s.apply env e) P p g' ∧ CleanEvent env s e ∧
      ∀ M m, Member env s.world P M m → OnlyFrom M e → MiningTaken env s (s.apply env e) P M p m g' := by
  have nothing : s.apply env e = s → CleanEvent env s e → ∃ g', (∀ x, midnight s.now ≤ x → g' x ≤ g x) ∧
      PoolTaken env s (s.apply env e) P p g' ∧ CleanEvent env s e ∧
      ∀ M m, Member env s.world P M m → OnlyFrom M e → MiningTaken env s (s.apply env e) P M p m g' := by
    intro h hc
    rw [h]
    exact ⟨_, fun x _ => takenFromPool_nonneg hg x, nothing_taken hp, hc, fun M m hm _ => nothing_taken_mining hm⟩
  cases e with
  | ix accs' j =>
    obtain ⟨h1, h2, h3⟩ := hl
    have hc : CleanEvent env s (.ix accs' j) := by
      cases j <;> first | exact trivial | cases h1
    cases hx : exec env s.now s.world accs' j with
    | error er => exact nothing (apply_ix_error hx) hc
    | ok r =>
      obtain ⟨w', r⟩ := r
      obtain ⟨M, m, g', a1, a2, a3, a4, m', a5, a6, a7, a8⟩ := taken_exec hw hv h1 h2 hp hx
      rw [apply_ix_ok hx]
      refine ⟨g', h3 g g' hg a3, a4, hc, ?_⟩
      rintro M' m0 hm0 ⟨b1, b2⟩
      rw [a1] at b1; cases b1
      obtain rfl := MiningAt.unique hm0.1 a2.1
      exact ⟨m', a5, a6, fun x hx => by rw [a3.2 b2]; exact a7 x hx, Or.inl a8⟩
  | tick n =>
    cases hl
    exact nothing rfl trivial
  | gc k => exact hl.elim
  | ext w => exact hl.elim

/-- What a deposit does, compared with nothing. -/
theorem one_deposit {s : Chain} {accs rest : List AccountInfo} {P M A D : AccountInfo} {a : Nat} {l : LockupPeriod}
    {o d : Key} {w2 : World} {r2 : Option Nat} (hw : Wf env s.now s.world) (hs : RealSigners accs)
    (hacc : accs = P :: M :: A :: D :: rest) (h2 : exec env s.now s.world accs (.depositMining a l o d) = .ok (w2, r2))
    (hp2 : RoomInPool env P.key s (.ix accs (.depositMining a l o d))) {p : Pool} (hp : PoolAt env s.world P.key p) :
    ∃ (m : Mining) (p2 : Pool) (m2 : Mining) (c : Nat → Int), Member env s.world P.key M.key m ∧ PoolAt env w2 P.key p2 ∧
      MiningAt env w2 M.key m2 ∧ SameBudget p p2 ∧ (D.key = M.key → Apart s.now c p p2) ∧
      (∀ x, midnight s.now ≤ x → 0 ≤ c x) ∧
      (RoomInMining env M.key s l → ∀ x, midnight s.now ≤ x → weightOn m2 x = weightOn m x + c x) ∧
      m2.stakeFromOthers = m.stakeFromOthers ∧ CreditedAs s.now p.cumulative m m2 ∧
      (∀ k, (w2 k).lamports = (s.world k).lamports) ∧
      (∀ k, k ≠ P.key → k ≠ M.key → k ≠ D.key → w2 k = s.world k) ∧
      ∃ c' : Nat → Int, Apart s.now c' p p2 ∧ ∀ x, midnight s.now ≤ x → 0 ≤ c' x := by
  obtain ⟨P1, M1, A1, D1, rest1, k, n, e1, u1, ⟨m, q, hm, -, -, hmp, -⟩, c1⟩ := C17_deposit hw hs h2
  rw [hacc] at e1
  cases e1
  have hf : FirstIs accs P.key := by rw [hacc]; rfl
  obtain ⟨p1, a1, a2, a3, -, a4⟩ := c1.pools _ _ hp
  obtain ⟨m1, f1, f2, -, f3, f4, -⟩ := c1.minings _ _ hm
  have a4 := a4 rfl (hp2 hf p k n hp u1)
  have hcr : CreditedAs s.now p.cumulative m m1 ∧ ∀ k, (w2 k).lamports = (s.world k).lamports := by
    cases step_of_exec hw hs (by exact trivial) h2 with
    | @stake i P' M' A' D' p0 p' m0 m' d0 d' accs_eq op chk del quiet same sfo ok' sameDel eff shell =>
      obtain ⟨rest', e⟩ := accs_eq
      rw [hacc] at e; cases e
      obtain rfl := PoolAt.unique hp eff.pool
      obtain rfl := MiningAt.unique hm eff.mining
      obtain rfl := MiningAt.unique f1 eff.mining'
      exact ⟨(deposit_credit chk.good.ok chk.miningOk op).1, fun k => (shell k).2.1⟩
  have hc0 : ∀ x, 0 ≤ stakeWeight a k (midnight s.now + 86400 * n) x := by
    intro x
    have q3 : (a : Int) * k = ((a * k : Nat) : Int) := by simp
    unfold stakeWeight
    rw [q3]
    split <;> omega
  simp only [ne_eq, not_true_eq_false, and_false, if_false] at f3
  refine ⟨m, p1, m1, stakeWeight a k (midnight s.now + 86400 * n), ⟨hm, hmp⟩, a1, f1, a2, ?_, fun x _ => hc0 x, ?_, by omega,
    hcr.1, hcr.2, fun k k1 k2 k3 => c1.others k k1 k2 k3, ?_⟩
  · intro hD x hx
    rw [a4 x hx]
    simp only [if_pos hD]; omega
  · intro hr x hx
    exact f4 rfl (hr m k n hm u1) x hx
  · refine ⟨_, a4, fun x _ => ?_⟩
    have := hc0 x
    split <;> omega

end Verif
