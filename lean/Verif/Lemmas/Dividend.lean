import Verif.Lemmas.Life
import Verif.Lemmas.Ledger
import Verif.Lemmas.TwinRun
import Verif.Spec.Dividend
/-!
The account of a staker in terms of the ledger of stakes.
-/

namespace Verif

open Spec

variable {env : Env}

theorem Spec.DividendRuns.ledger {P k : Key} {s s' : Chain} {L L' : Ledger} {es : List Event} {n : Nat}
    (h : DividendRuns env P k s L es s' L' n) : LedgerRuns env P s L es s' L' := by
  induction h with
  | nil => exact .nil _ _
  | cons hv hl _ ih => exact .cons hv hl ih

/-- The event leaves the account `k` in place. -/
def Leaves (k : Key) (e : Event) : Prop := ∀ j, e = .gc j → j ≠ k

/-- An event that does not remove the pool. -/
theorem pool_stays {s : Chain} (hw : Wf env s.now s.world) {e : Event} (hv : e.Valid env s) (hc : CleanEvent env s e)
    {k : Key} {p : Pool} (hp : PoolAt env s.world k p) (hk : Leaves k e) :
    ∃ p', PoolAt env (s.apply env e).world k p' ∧ PoolEvent env s k p e p' := by
  cases e with
  | ix accs i =>
    cases hx : exec env s.now s.world accs i with
    | error e =>
      rw [apply_ix_error hx]
      refine ⟨p, hp, .same ?_⟩
      rintro _ _ h; cases h; exact ⟨e, hx⟩
    | ok r =>
      obtain ⟨w', ret⟩ := r
      rw [apply_ix_ok hx]
      obtain ⟨p', h1, h2, h3, -⟩ := (step_of_exec hw hv hc hx).pool hp
      exact ⟨p', h1, .ix hx h2⟩
  | tick d => exact ⟨p, hp, .same (by rintro _ _ h; cases h)⟩
  | gc j =>
    have e1 : (s.apply env (.gc j)).world k = s.world k := world_set_ne _ _ (Ne.symm (hk j rfl))
    exact ⟨p, (poolAt_congr e1).mpr hp, .same (by rintro _ _ h; cases h)⟩
  | ext w' =>
    obtain ⟨e1, -, e3, e4⟩ := hv.program_owned k hp.1
    exact ⟨p, ⟨e1.trans hp.1, e3.trans hp.2⟩, .same (by rintro _ _ h; cases h)⟩

/-- One careful event that does not remove the mining. -/
theorem event_stays {P k : Key} {s : Chain} {e : Event} {m : Mining} {p p1 : Pool} (hre : Reachable env s)
    (hv : e.Valid env s) (hc : CarefulEvent env P k s e) (hm : Proper env s.world k m) (hpool : m.rewardPool = P)
    (hk : Leaves k e) (hp : PoolAt env s.world P p) (hi : m.index ≤ p.index) (h3 : PoolEvent env s P p e p1)
    (hroom : p1.cumulative.length < env.caps.index) :
    ∃ m', Proper env (s.apply env e).world k m' ∧ m'.rewardPool = P ∧ m'.index ≤ p1.index ∧
      10 ^ 16 * claimedBy env k s e + owed m' p1.cumulative ≤ owed m p.cumulative + incomeBy env P m s e ∧
      owed m p.cumulative + incomeBy env P m s e ≤
        10 ^ 16 * claimedBy env k s e + owed m' p1.cumulative + 10 ^ 16 * roundedBy env k s e := by
  have hw := reachable_wf hre
  cases h3 with
  | same none =>
    rw [claimedBy_of_none none, incomeBy_of_none none]
    have key : Proper env (s.apply env e).world k m := by
      cases e with
      | ix accs i =>
        obtain ⟨er, her⟩ := none _ _ rfl
        rw [apply_ix_error her]; exact hm
      | tick d => exact hm
      | gc j =>
        have e1 : (s.apply env (.gc j)).world k = s.world k := world_set_ne _ _ (Ne.symm (hk j rfl))
        exact ⟨(miningAt_congr e1).mpr hm.1, hm.2⟩
      | ext w' =>
        obtain ⟨e1, -, e3, e4⟩ := hv.program_owned k hm.1.1
        exact ⟨⟨e1.trans hm.1.1, e3.trans hm.1.2⟩, hm.2⟩
    exact ⟨m, key, hpool, hi, by omega, by omega⟩
  | @ix accs i w' ret _ ok change =>
    have hl := (change.history (poolAt_good hw hp).ok).1
    have hroom0 : p.cumulative.length < env.caps.index := by
      rcases hl with h1 | ⟨-, h1⟩ <;> rw [h1] at hroom
      · exact hroom
      · simp only [List.length_append] at hroom; omega
    have hlast := index_recorded hre hp hroom0
    have hsucc : succeeded env s accs i = true := by simp [succeeded, ok]
    have hinc : incomeBy env P m s (.ix accs i) = incomeFrom accs s.now P p m i := by
      simp only [incomeBy, hp.2, hsucc, if_true]
    have hcl : claimedBy env k s (.ix accs i) = claimedOut accs k i ret := by simp only [claimedBy, ok]
    rw [hinc, hcl, apply_ix_ok ok]
    cases (step_of_exec hw hv hc.1 ok).life hm.1 hm.2 hpool hp (hc.2 hsucc) hlast with
    | idle same nothing =>
      obtain ⟨j1, j2⟩ := change.income (poolAt_good hw hp).ok hlast hi hroom
      refine ⟨m, ⟨(miningAt_congr same).mpr hm.1, hm.2⟩, hpool, Nat.le_trans hi j2, ?_, ?_⟩
      · rw [nothing, j1]; omega
      · rw [nothing, j1]; omega
    | @active m' after same lamports other index upper lower =>
      obtain ⟨j1, j2, j3⟩ := change.idle other
      rw [j1, j2, j3, hlast]
      have hrd : roundedBy env k s (.ix accs i) =
          if refreshes i = true ∧ miningArg accs i = some k then expiredCount m (midnight s.now) + 1 else 0 := by
        simp only [roundedBy, hm.1.2, hsucc, true_and]
      rw [hrd]
      exact ⟨m', ⟨after, same.accountType.trans hm.2⟩, same.rewardPool.trans hpool, index, upper, lower⟩

/-- By the ledger, a staker earns with the stakes of the ledger. -/
theorem Booked.dividend {s : Chain} {P k : Key} {L : Ledger} (hb : Booked env s.now s.world P L) {m : Mining}
    (hm : Member env s.world P k m) {p : Pool} (hp : PoolAt env s.world P p) (e : Event) :
    incomeBy env P m s e = dividendBy env P k s L e := by
  have h1 := hb.weight k m hm (midnight s.now) (Nat.le_refl _)
  have h2 := hb.lent k m hm
  have h3 := hb.total p hp (midnight s.now) (Nat.le_refl _)
  have h4 : earningOn m (midnight s.now) = L.weight k (midnight s.now) := by
    unfold weightOn at h1
    unfold earningOn Ledger.weight
    omega
  unfold dividendBy
  rw [← h4, ← h3]
  cases e with
  | ix accs i =>
    simp only [incomeBy, distributedBy, hp.2, incomeFrom]
    split <;> simp
  | _ => simp [incomeBy, distributedBy]

/-- Who has no mining has no stakes. -/
theorem Booked.nothing {s : Chain} {P k : Key} {L : Ledger} (hb : Booked env s.now s.world P L) 
    (hn : ∀ m, ¬ Member env s.world P k m) (e : Event) : dividendBy env P k s L e = 0 := by
  have h1 : L.own k (midnight s.now) = 0 := own_zero (fun y hy hk => by
    apply Classical.byContradiction
    intro h
    obtain ⟨⟨m, hm⟩, -⟩ := hb.known y hy (by omega)
    rw [hk] at hm; exact hn m hm) _
  have h2 : L.lentTo k = 0 := lentTo_zero fun y hy hk => by
    apply Classical.byContradiction
    intro h
    obtain ⟨-, m, hm⟩ := hb.known y hy (by omega)
    rw [hk] at hm; exact hn m hm
  simp [dividendBy, Ledger.weight, h1, h2]

theorem lentTo_nonneg (L : Ledger) (k : Key) : 0 ≤ L.lentTo k :=
  sum_nonneg fun y => by
    split
    · exact lent_nonneg y
    · exact Int.le_refl _

/-- A mining of a pool is initialized. -/
theorem member_proper {s : Chain} (hre : Reachable env s) {P k : Key} (hP0 : P ≠ 0) {m : Mining}
    (hm : Member env s.world P k m) : Proper env s.world k m ∧ env.findMining m.owner P = some (k, m.bump) := by
  rcases reachable_mining hre hm.1 with h | ⟨h1, h2⟩
  · exact absurd (hm.2.symm.trans h.pool) hP0
  · rw [hm.2] at h2; exact ⟨⟨hm.1, h1⟩, h2⟩

/-- What the owner of `k` is owed at a moment: what the mining holds, or nothing while there is no mining. -/
inductive OwedAt (env : Env) (P k : Key) (s : Chain) (p : Pool) : Nat → Prop
  | mining {m : Mining} (proper : Proper env s.world k m) (inPool : m.rewardPool = P) (index : m.index ≤ p.index) :
      OwedAt env P k s p (owed m p.cumulative)
  | none (none : ∀ m, ¬ Proper env s.world k m) : OwedAt env P k s p 0

theorem owed_fresh (P o : Key) (bump : Nat) (cum : SMap) : owed (Mining.init P o bump) cum = 0 := by
  have he : ∀ x, earningOn (Mining.init P o bump) x = 0 := fun x => by
    simp [earningOn, dueBy, Mining.init, Mining.zero]
  have : ∀ l i q, earned (earningOn (Mining.init P o bump)) i q l = 0 := by
    intro l
    induction l with
    | nil => intro i q; rfl
    | cons a t ih =>
      intro i q
      simp [earned, ih, he]
  simp only [owed, pending, this]
  rfl

/-- Without a mining nothing is claimed. -/
theorem unclaimed {s : Chain} (hre : Reachable env s) {k : Key} (hn : ∀ m, ¬ Proper env s.world k m) {e : Event}
    (hv : e.Valid env s) (hc : CleanEvent env s e) : claimedBy env k s e = 0 := by
  cases e with
  | ix accs i =>
    cases hx : exec env s.now s.world accs i with
    | error er => simp only [claimedBy, hx]
    | ok r =>
      obtain ⟨w', ret⟩ := r
      simp only [claimedBy, hx]
      cases step_of_exec (reachable_wf hre) hv hc hx with
      | @claim P T V M O A U K rest p m m1 n accs_eq _ _ eff =>
        simp only [claimedOut]
        rw [if_neg]
        intro hk
        subst accs_eq
        obtain rfl : M.key = k := Option.some.inj hk
        have hm : Member env s.world P.key M.key m := ⟨eff.mining, eff.inPool⟩
        exact hn m (member_proper hre ((reachable_wf hre P.key).nonzero eff.pool.1) hm).1
      | stake _ op => cases i <;> first | rfl | exact op.elim
      | _ => rfl
  | _ => rfl

/-- One event of an honest history. -/
theorem event_dividend (hi : env.PdaInjective) {P k o : Key} {b : Nat} (haddr : env.findMining o P = some (k, b)) {s : Chain}
    {e : Event} {L L1 : Ledger} {p p1 : Pool} {x : Nat} (hre : Reachable env s) (hP0 : P ≠ 0)
    (hb : Booked env s.now s.world P L) (hv : e.Valid env s) (hl : LedgerEvent env P s L L1 e) (hc : CarefulEvent env P k s e)
    (hp : PoolAt env s.world P p) (h3 : PoolEvent env s P p e p1) (hroom : p1.cumulative.length < env.caps.index)
    (hx : OwedAt env P k s p x) :
    ∃ y, OwedAt env P k (s.apply env e) p1 y ∧
      10 ^ 16 * claimedBy env k s e + y ≤ x + dividendBy env P k s L e ∧
      x + dividendBy env P k s L e ≤ 10 ^ 16 * claimedBy env k s e + y + 10 ^ 16 * roundedBy env k s e := by
  cases hx with
  | @mining m proper inPool index =>
    have hk : Leaves k e := by
      rintro j rfl rfl
      exact hl.2.2 m ⟨proper.1, inPool⟩
    obtain ⟨m', g1, g2, g3, g4, g5⟩ := event_stays hre hv hc proper inPool hk hp index h3 hroom
    rw [hb.dividend ⟨proper.1, inPool⟩ hp e] at g4 g5
    exact ⟨_, .mining g1 g2 g3, g4, g5⟩
  | none hn =>
    rw [unclaimed hre hn hv hc.1, hb.nothing (fun m hm => hn m (member_proper hre hP0 hm).1) e]
    refine ⟨0, ?_, by omega, by omega⟩
    by_cases hex : ∃ m, Proper env (s.apply env e).world k m
    · obtain ⟨m, hm⟩ := hex
      rcases apply_mining_back (reachable_wf hre) hv hc.1 hm.1 with ⟨m0, h1, h2⟩ | h1 | ⟨o', P', bump, h1, rfl⟩
      · exact absurd ⟨h1, h2.accountType.symm.trans hm.2⟩ (hn m0)
      · exact absurd (hm.2.symm.trans h1.type) (by decide)
      · obtain ⟨rfl, rfl, rfl⟩ := hi.mining _ _ _ _ _ _ _ (env.findMining_spec _ _ _ _ h1) (env.findMining_spec _ _ _ _ haddr)
        have := OwedAt.mining (env := env) (p := p1) hm rfl (Nat.zero_le _)
        rwa [owed_fresh] at this
    · exact .none fun m hm => hex ⟨m, hm⟩

/-- The history of distributions only grows. -/
theorem ledger_grows {P : Key} {s s' : Chain} {L L' : Ledger} {es : List Event} (hr : LedgerRuns env P s L es s' L') :
    Reachable env s → ∀ {p}, PoolAt env s.world P p → ∀ {p'}, PoolAt env s'.world P p' →
    p.cumulative.length ≤ p'.cumulative.length := by
  induction hr with
  | nil =>
    intro _ p hp p' hp'
    rw [PoolAt.unique hp hp']; exact Nat.le_refl _
  | cons hv hl _ ih =>
    intro hre p hp p' hp'
    have hw := reachable_wf hre
    obtain ⟨p1, h1, h3⟩ := pool_stays hw hv hl.clean hp (by rintro j rfl; exact hl.2.1)
    refine Nat.le_trans ?_ (ih (hre.step hv hl.clean) h1 hp')
    cases h3 with
    | same => exact Nat.le_refl _
    | ix ok change =>
      rcases (change.history (poolAt_good hw hp).ok).1 with h1 | ⟨-, h1⟩
      · rw [h1]; exact Nat.le_refl _
      · rw [h1, List.length_append]; omega

/-- Throughout an honest history. -/
theorem runs_dividend (hi : env.PdaInjective) {P k o : Key} {b : Nat} (haddr : env.findMining o P = some (k, b))
    (hP0 : P ≠ 0) {s s' : Chain} {L L' : Ledger} {es : List Event} {n : Nat} (hd : DividendRuns env P k s L es s' L' n) :
    RunsWith env (CarefulEvent env P k) s es s' → Reachable env s → Booked env s.now s.world P L →
    ∀ {p}, PoolAt env s.world P p → ∀ {p'}, PoolAt env s'.world P p' → p'.cumulative.length < env.caps.index →
    ∀ {x}, OwedAt env P k s p x →
    ∃ y, OwedAt env P k s' p' y ∧
      10 ^ 16 * totalIn env (claimedBy env k) s es + y ≤ x + n ∧
      x + n ≤ 10 ^ 16 * totalIn env (claimedBy env k) s es + y + 10 ^ 16 * totalIn env (roundedBy env k) s es := by
  induction hd with
  | nil s L =>
    intro _ _ _ p hp p' hp' _ x hx
    obtain rfl := PoolAt.unique hp hp'
    exact ⟨x, hx, by simp [totalIn], by simp [totalIn]⟩
  | @cons s s' L L1 L' e es n hv hl hd' ih =>
    intro hr hre hb p hp p' hp' hroom x hx
    cases hr with
    | cons _ hc hr' =>
    have hw := reachable_wf hre
    have hre' := hre.step hv hc.1
    have hb' := apply_booked hi hP0 hv hl hw hb
    obtain ⟨p1, h1, h3⟩ := pool_stays hw hv hc.1 hp (by rintro j rfl; exact hl.2.1)
    have hlen : p1.cumulative.length ≤ p'.cumulative.length := ledger_grows hd'.ledger hre' h1 hp'
    obtain ⟨y, g1, g2, g3⟩ := event_dividend hi haddr hre hP0 hb hv hl hc hp h3 (Nat.lt_of_le_of_lt hlen hroom) hx
    obtain ⟨z, r1, r2, r3⟩ := ih hr' hre' hb' h1 hp' hroom g1
    refine ⟨z, r1, ?_, ?_⟩
    · simp only [totalIn]; omega
    · simp only [totalIn]; omega

end Verif
