import Verif.Lemmas.Dividend
/-!
What a staker who is left alone is due by the ledger of stakes.
-/

namespace Verif

open Spec

variable {env : Env}

/-- An event that does not write to a mining and does not remove it. -/
theorem event_alone {P k : Key} {s : Chain} {e : Event} {m : Mining} {p p1 : Pool} (hre : Reachable env s)
    (hv : e.Valid env s) (hsp : Spares k e) (hm : MiningAt env s.world k m) (hk : Leaves k e)
    (hp : PoolAt env s.world P p) (hi : m.index ≤ p.index) (h3 : PoolEvent env s P p e p1)
    (hroom : p1.cumulative.length < env.caps.index) :
    MiningAt env (s.apply env e).world k m ∧ m.index ≤ p1.index ∧
      owed m p1.cumulative = owed m p.cumulative + incomeBy env P m s e := by
  have hw := reachable_wf hre
  cases h3 with
  | same none =>
    rw [incomeBy_of_none none]
    refine ⟨?_, hi, rfl⟩
    cases e with
    | ix accs i =>
      obtain ⟨er, her⟩ := none _ _ rfl
      rw [apply_ix_error her]; exact hm
    | tick d => exact hm
    | gc j =>
      have e1 : (s.apply env (.gc j)).world k = s.world k := world_set_ne _ _ (Ne.symm (hk j rfl))
      exact (miningAt_congr e1).mpr hm
    | ext w' =>
      obtain ⟨e1, -, e3, e4⟩ := hv.program_owned k hm.1
      exact ⟨e1.trans hm.1, e3.trans hm.2⟩
  | @ix accs i w' ret _ ok change =>
    have hl := (change.history (poolAt_good hw hp).ok).1
    have hroom0 : p.cumulative.length < env.caps.index := by
      rcases hl with h1 | ⟨-, h1⟩ <;> rw [h1] at hroom
      · exact hroom
      · simp only [List.length_append] at hroom; omega
    have hlast := index_recorded hre hp hroom0
    have hsucc : succeeded env s accs i = true := by simp [succeeded, ok]
    have hinc : incomeBy env P m s (.ix accs i) = incomeFrom accs s.now P p m i := by
      simp only [incomeBy, hp.2, hsucc, if_true]
    obtain ⟨j1, j2⟩ := change.income (poolAt_good hw hp).ok hlast hi hroom
    rw [hinc, apply_ix_ok ok]
    exact ⟨(miningAt_congr (spared ok hsp)).mpr hm, Nat.le_trans hi j2, j1⟩

/-- Over an honest history in which a mining is left alone, it earns exactly the dividends of the ledger. -/
theorem runs_alone (hi : env.PdaInjective) {P k : Key} (hP0 : P ≠ 0) {s s' : Chain} {L L' : Ledger} {es : List Event} {n : Nat}
    {m : Mining} (hpool : m.rewardPool = P) (hd : DividendRuns env P k s L es s' L' n) :
    RunsWith env (fun _ e => Spares k e) s es s' → Reachable env s → Booked env s.now s.world P L →
    MiningAt env s.world k m → ∀ {p}, PoolAt env s.world P p → m.index ≤ p.index → ∀ {p'}, PoolAt env s'.world P p' →
    p'.cumulative.length < env.caps.index →
    MiningAt env s'.world k m ∧ owed m p'.cumulative = owed m p.cumulative + n := by
  induction hd with
  | nil s L =>
    intro _ _ _ hm p hp _ p' hp' _
    obtain rfl := PoolAt.unique hp hp'
    exact ⟨hm, rfl⟩
  | @cons s s' L L1 L' e es n hv hl hd' ih =>
    intro hr hre hb hm p hp hidx p' hp' hroom
    cases hr with
    | cons _ hsp hr' =>
    have hw := reachable_wf hre
    have hre' := hre.step hv hl.clean
    have hb' := apply_booked hi hP0 hv hl hw hb
    obtain ⟨p1, h1, h3⟩ := pool_stays hw hv hl.clean hp (by rintro j rfl; exact hl.2.1)
    have hlen : p1.cumulative.length ≤ p'.cumulative.length := ledger_grows hd'.ledger hre' h1 hp'
    have hk : Leaves k e := by
      rintro j rfl rfl
      exact hl.2.2 m ⟨hm, hpool⟩
    obtain ⟨g1, g2, g3⟩ := event_alone hre hv hsp hm hk hp hidx h3 (Nat.lt_of_le_of_lt hlen hroom)
    rw [hb.dividend ⟨hm, hpool⟩ hp e] at g3
    obtain ⟨r1, r2⟩ := ih hr' hre' hb' g1 h1 g2 hp' hroom
    exact ⟨r1, by omega⟩

end Verif
