import Verif.Lemmas.Live
import Verif.Lemmas.Distribution
import Verif.Lemmas.Conserve
import Verif.Spec.Income
/-!
What a mining earns while it is left alone.
-/

namespace Verif

open Spec

variable {env : Env}

theorem lastIndex_le {l : List (Nat × Nat)} {B q : Nat} (hq : q ≤ B) (h : ∀ e ∈ l, e.2 ≤ B) : lastIndex q l ≤ B := by
  induction l generalizing q with
  | nil => exact hq
  | cons a t ih => exact ih (h a (List.mem_cons_self ..)) fun e he => h e (List.mem_cons_of_mem _ he)

theorem distributedFrom_of_not {accs : List AccountInfo} {now : Nat} {P : Key} {p : Pool} {i : Ix}
    (h : i.isBudget = true → accs[0]?.map (·.key) ≠ some P) : distributedFrom accs now P p i = 0 := by
  cases i <;> first
    | rfl
    | (simp only [distributedFrom]; exact if_neg fun hh => h rfl (firstIs_iff.mp hh.1))

/-- What an instruction adds to what a mining is owed. -/
theorem PoolChange.income {now : Nat} {w w' : World} {accs : List AccountInfo} {P : Key} {p p' : Pool} {i : Ix}
    (hp : PoolOk now p) (h : PoolChange env now w w' accs P p i p') (hlast : p.index = lastIndex 0 p.cumulative)
    {m : Mining} (hm : m.index ≤ p.index) (hroom : p'.cumulative.length < env.caps.index) :
    owed m p'.cumulative = owed m p.cumulative + incomeFrom accs now P p m i ∧ p.index ≤ p'.index := by
  cases h with
  | same other => simp [incomeFrom, distributedFrom_of_not other]
  | stake hi quiet signed =>
    have : distributedFrom accs now P p i = 0 := by cases i <;> first | rfl | cases hi
    rw [quiet.cumulative, quiet.index]
    simp [incomeFrom, this]
  | fill acc signed nonzero future later endBound bound => simp [incomeFrom, distributedFrom]
  | @distribute _ r acc signed amount op same ok' =>
    have hf : FirstIs accs P := firstIs_iff.mpr acc
    by_cases hn : NewDay p now
    · obtain ⟨T, h1, h2, h3, h4, rfl⟩ := distribute_new hp hn op
      have hr : r = dailyAmount p.tokensAvailable p.distributionEndsAt now := rewardsToDistribute_ok amount
      have hroom' : p.cumulative.length < env.caps.index := by
        simp only at hroom
        split at hroom
        · assumption
        · exact hroom
      simp only [if_pos hroom']
      refine ⟨?_, Nat.le_add_right _ _⟩
      rw [hlast, owed_append hp.history (by omega)]
      simp only [incomeFrom, distributedFrom, if_pos (And.intro hf hn), h1, Int.toNat_natCast, ← hr]
    · obtain ⟨T, -, rfl⟩ := distribute_again hp hn op
      simp [incomeFrom, distributedFrom, hn]

theorem spared {now : Nat} {w w' : World} {accs : List AccountInfo} {i : Ix} {ret : Option Nat} {k : Key}
    (hx : exec env now w accs i = .ok (w', ret)) (hk : Spares k (.ix accs i)) : w' k = w k := by
  rw [exec_ok] at hx
  refine Classical.byContradiction fun hne => ?_
  obtain ⟨a, ha, rfl⟩ : ∃ a ∈ accs, a.key = k := by
    have := (outer_of_process hx.1).listed hne
    simpa using this
  exact hne (hx.2 a ha (hk a ha rfl))

/-- Over a history in which a mining is left alone. -/
theorem runs_income {P k : Key} {s s' : Chain} {es : List Event} {m : Mining}
    (hr : RunsWith env (fun s e => CleanEvent env s e ∧ Spares k e) s es s') :
    Reachable env s → MiningAt env s.world k m → 0 < (s.world k).lamports → ∀ {p}, PoolAt env s.world P p →
    0 < (s.world P).lamports → m.index ≤ p.index → ∀ {p'}, PoolAt env s'.world P p' →
    p'.cumulative.length < env.caps.index →
    MiningAt env s'.world k m ∧ owed m p'.cumulative = owed m p.cumulative + totalIn env (incomeBy env P m) s es := by
  induction hr with
  | nil s =>
    intro _ hm _ p hp _ _ p' hp' _
    obtain rfl := PoolAt.unique hp hp'
    exact ⟨hm, rfl⟩
  | @cons s s' e es hv hc hr' ih =>
    intro hre hm hml p hp hpl hi p' hp' hroom
    have hw := reachable_wf hre
    have hre' := hre.step hv hc.1
    obtain ⟨p1, h1, h2, h3⟩ := apply_pool hw hv hc.1 hp hpl
    have hlen : p1.cumulative.length ≤ p'.cumulative.length := by
      obtain ⟨q, k1, -, k2⟩ := runs_pool (reachable_wf hre') (hr'.weaken fun _ _ h => h.1) h1 h2
        (fun _ q => p1.cumulative <+: q.cumulative) (List.prefix_refl _) (by
          rintro s e q q' hw' hv hq i1 hev
          cases hev with
          | same => exact i1
          | ix ok change =>
            rcases (change.history (poolAt_good hw' hq).ok).1 with h1 | ⟨-, h1⟩
            · rw [h1]; exact i1
            · rw [h1]; exact i1.trans (List.prefix_append _ _))
      rw [PoolAt.unique hp' k1]
      exact k2.length_le
    have hm' : MiningAt env (s.apply env e).world k m ∧ 0 < ((s.apply env e).world k).lamports := by
      cases e with
      | ix accs i =>
        cases hx : exec env s.now s.world accs i with
        | error e => rw [apply_ix_error hx]; exact ⟨hm, hml⟩
        | ok r =>
          obtain ⟨w', ret⟩ := r
          rw [apply_ix_ok hx]
          have e1 := spared hx hc.2
          refine ⟨(miningAt_congr e1).mpr hm, ?_⟩
          show 0 < (w' k).lamports
          rw [e1]; exact hml
      | tick d => exact ⟨hm, hml⟩
      | gc j =>
        have hne : k ≠ j := by rintro rfl; exact absurd (show (s.world k).lamports = 0 from hv) (by omega)
        have e1 : (s.apply env (.gc j)).world k = s.world k := world_set_ne _ _ hne
        exact ⟨(miningAt_congr e1).mpr hm, by rw [e1]; exact hml⟩
      | ext w' =>
        obtain ⟨e1, -, e3, e4⟩ := hv.program_owned k hm.1
        exact ⟨⟨e1.trans hm.1, e3.trans hm.2⟩, Nat.lt_of_lt_of_le hml e4⟩
    have hstep : owed m p1.cumulative = owed m p.cumulative + incomeBy env P m s e ∧ m.index ≤ p1.index := by
      cases h3 with
      | same none =>
        refine ⟨?_, hi⟩
        have : incomeBy env P m s e = 0 := by
          cases e <;> try rfl
          obtain ⟨er, her⟩ := none _ _ rfl
          simp only [incomeBy, hp.2, succeeded, her]
          simp
        omega
      | ix ok change =>
        have hl := (change.history (poolAt_good hw hp).ok).1
        have hroom1 : p1.cumulative.length < env.caps.index := by omega
        have hroom0 : p.cumulative.length < env.caps.index := by
          rcases hl with h1 | ⟨-, h1⟩ <;> rw [h1] at hroom1
          · exact hroom1
          · simp only [List.length_append] at hroom1; omega
        obtain ⟨j1, j2⟩ := change.income (poolAt_good hw hp).ok (index_recorded hre hp hroom0) hi hroom1
        refine ⟨?_, Nat.le_trans hi j2⟩
        rw [j1]
        simp [incomeBy, hp.2, succeeded, ok]
    obtain ⟨r1, r2⟩ := ih hre' hm'.1 hm'.2 h1 h2 hstep.2 hp' hroom
    refine ⟨r1, ?_⟩
    rw [r2, hstep.1, totalIn, Nat.add_assoc]

end Verif
