import Verif.Lemmas.Steps
import Verif.Lemmas.Run
/-!
What the acting mining and the delegates are credited by the stake operations.
-/

namespace Verif

open Spec

variable {env : Env}

/-- The acting mining is credited exactly as by refreshing it. -/
def CreditedAs (now : Nat) (cum : SMap) (m m' : Mining) : Prop :=
  ∃ m1, m.refreshRewards now cum = .ok m1 ∧ m'.unclaimed = m1.unclaimed ∧ m'.index = m1.index

theorem deposit_credit {caps : Caps} {now : Nat} {p p' : Pool} {m m' : Mining} {a : Nat} {l : LockupPeriod}
    {d d' : Option Mining} (hp : PoolOk now p) (hm : MiningOk m) (h : p.deposit caps now m a l d = .ok (p', m', d')) :
    CreditedAs now p.cumulative m m' ∧
    (∀ x, d = some x → ∃ x' q q', d' = some x' ∧ q.cumulative = p.cumulative ∧ Pool.delegateAdd now a q x = .ok (q', x')) := by
  obtain ⟨m1, e, h1, h2, -, -, -, -, -, -, rfl, h9⟩ := deposit_ok (refresh_sorted hp hm) h
  refine ⟨⟨m1, h1, rfl, rfl⟩, ?_⟩
  rintro x rfl
  rw [withDelegate_some] at h9
  obtain ⟨x', h10, rfl⟩ := h9
  refine ⟨x', _, _, rfl, ?_, h10⟩; rfl

theorem withdraw_credit {now : Nat} {p p' : Pool} {m m' : Mining} {a : Nat}
    {d d' : Option Mining} (hp : PoolOk now p) (h : p.withdraw now m a d = .ok (p', m', d')) :
    CreditedAs now p.cumulative m m' ∧
    (∀ x, d = some x → ∃ x' q q', d' = some x' ∧ q.cumulative = p.cumulative ∧ Pool.delegateSub now a q x = .ok (q', x')) := by
  obtain ⟨m1, h1, -, -, rfl, h5⟩ := withdraw_ok hp.sorted h
  refine ⟨⟨m1, h1, rfl, rfl⟩, ?_⟩
  rintro x rfl
  rw [withDelegate_some] at h5
  obtain ⟨x', h10, rfl⟩ := h5
  refine ⟨x', _, _, rfl, ?_, h10⟩; rfl

theorem slash_credit {now : Nat} {p p' : Pool} {m m' : Mining} {n mu : Nat} {ex : Option Nat}
    (hp : PoolOk now p) (hm : MiningOk m) (h : p.slash now m n mu ex = .ok (p', m')) :
    CreditedAs now p.cumulative m m' := by
  obtain ⟨m1, h1, -, -, h4⟩ := slash_ok hp.sorted (refresh_sorted hp hm) h
  rcases h4 with ⟨-, rfl, -⟩ | ⟨ts, om, op, -, -, g1, g2, -, -, rfl, -⟩
  · exact ⟨m1, h1, rfl, rfl⟩
  · exact ⟨m1, h1, rfl, rfl⟩

theorem extend_credit {caps : Caps} {now : Nat} {p p' : Pool} {m m' : Mining} {op np : LockupPeriod} {ts b a : Nat}
    {d d' : Option Mining} (hp : PoolOk now p) (hm : MiningOk m) (hd : ∀ x, d = some x → MiningOk x)
    (h : p.extend caps now m op np ts b a d = .ok (p', m', d')) :
    CreditedAs now p.cumulative m m' ∧
    (∀ x, d = some x → ∃ x1 x' q q' r r', d' = some x' ∧ q.cumulative = p.cumulative ∧ r.cumulative = p.cumulative ∧
      Pool.delegateSub now b q x = .ok (q', x1) ∧ Pool.delegateAdd now (b + a) r x1 = .ok (r', x')) := by
  obtain ⟨m1, oe, p2, m2, p3, d3, h1, -, h3, -, h5, h6⟩ := extend_ok (refresh_sorted hp hm) h
  obtain ⟨s1, o1, f1⟩ := refresh_same hp.history hm h1
  have key : Quiet now p p2 ∧ MiningOk m2 ∧ m2.unclaimed = m1.unclaimed ∧ m2.index = m1.index := by
    rcases h3 with ⟨-, -, -, ⟨old, g1, -, rfl⟩, -, -, rfl⟩ | ⟨-, -, -, rfl, rfl⟩
    · exact ⟨Quiet.mk'' hp, ⟨SMap.put_sorted o1.1 _ _, put_aligned o1.2 g1⟩, rfl, rfl⟩
    · exact ⟨Quiet.mk'' hp, ⟨o1.1, o1.2⟩, rfl, rfl⟩
  obtain ⟨q2, o2, f2, f3⟩ := key
  obtain ⟨q3, d3'⟩ := withSub_same q2.ok hd h5
  obtain ⟨⟨m3, g1, g2, g3⟩, g4⟩ := deposit_credit q3.ok o2 h6
  have hcum : p3.cumulative = p.cumulative := q3.cumulative.trans q2.cumulative
  have hi : m2.index = indexBefore p3.cumulative now := by
    obtain ⟨-, -, k, -⟩ := refresh_owed hp.history hm h1
    rw [f3, k, hcum]
  obtain ⟨e1, e2⟩ := refresh_again q3.ok.history o2 hi g1
  refine ⟨⟨m1, h1, by rw [g2, e1, f2], by rw [g3, e2, f3]⟩, ?_⟩
  rintro x rfl
  rw [withDelegate_some] at h5
  obtain ⟨x1, h10, rfl⟩ := h5
  obtain ⟨x', r, r', rfl, k1, k2⟩ := g4 x1 rfl
  exact ⟨x1, x', p2, p3, r, r', rfl, q2.cumulative, k1.trans hcum, h10, k2⟩

theorem redelegate_credit {now : Nat} {p p' : Pool} {m m' : Mining} {nd od nd' od' : Option Mining} {a : Nat}
    (h : p.changeDelegate now m nd od a = .ok (p', m', nd', od')) :
    CreditedAs now p.cumulative m m' ∧
    (∀ x, od = some x → ∃ x' q q', od' = some x' ∧ q.cumulative = p.cumulative ∧ Pool.delegateSub now a q x = .ok (q', x')) ∧
    (∀ x, nd = some x → ∃ x' q q', nd' = some x' ∧ q.cumulative = p.cumulative ∧ Pool.delegateAdd now a q x = .ok (q', x')) := by
  rw [changeDelegate_ok] at h
  obtain ⟨h1, p1, h2, h3⟩ := h
  have hcum : p1.cumulative = p.cumulative := by
    cases od with
    | none => rw [withDelegate_none] at h2; rw [h2.1]
    | some x =>
      rw [withDelegate_some] at h2
      obtain ⟨x', h2, _⟩ := h2
      rw [delegateSub_ok] at h2
      rw [h2.2.2.2]
  refine ⟨⟨m', h1, rfl, rfl⟩, ?_, ?_⟩
  · rintro x rfl
    rw [withDelegate_some] at h2
    obtain ⟨x', h10, rfl⟩ := h2
    refine ⟨x', _, _, rfl, ?_, h10⟩; rfl
  · rintro x rfl
    rw [withDelegate_some] at h3
    obtain ⟨x', h10, rfl⟩ := h3
    exact ⟨x', _, _, rfl, hcum, h10⟩

/-- In every stake operation the acting mining is credited as by refreshing it. -/
theorem StakeOp.credit {caps : Caps} {now : Nat} {p p' : Pool} {m m' : Mining} {d d' : Option Mining} {i : Ix}
    (hp : PoolOk now p) (hm : MiningOk m) (hd : ∀ x, d = some x → MiningOk x)
    (h : StakeOp caps now p m d p' m' d' i) : CreditedAs now p.cumulative m m' := by
  cases i with
  | depositMining a l o dl => exact (deposit_credit hp hm h).1
  | withdrawMining a o dl => exact (withdraw_credit hp h).1
  | extendStake ol nl ts b a o dl => exact (extend_credit hp hm hd h).1
  | slash o n mu ex => exact slash_credit hp hm h.1
  | _ => exact h.elim

/-- The delegate in a stake operation. -/
theorem StakeEffect.delegateAt {w w' : World} {pk mk dk : Key} {p p' : Pool} {m m' : Mining} {d d' : Option Mining}
    (h : StakeEffect env w w' pk mk dk p p' m m' d d') (hne : dk ≠ mk) {y : Mining} (hy : MiningAt env w dk y) :
    d = some y ∧ ∃ y', d' = some y' ∧ MiningAt env w' dk y' := by
  rcases h.minings hy with ⟨h1, _⟩ | ⟨_, _, h1, h2⟩ | ⟨_, h1, _⟩
  · exact absurd h1 hne
  · exact ⟨h1, h2⟩
  · exact absurd rfl h1

theorem OptMoved.at {w w' : World} {mk dk : Key} {d d' : Option Mining} (h : OptMoved env w w' mk dk d d')
    (hne : dk ≠ mk) {y : Mining} (hy : MiningAt env w dk y) :
    d = some y ∧ ∃ y', d' = some y' ∧ MiningAt env w' dk y' := by
  rcases h with ⟨h1, _⟩ | ⟨_, _, x, x', h1, h2, h3⟩
  · exact absurd h1 hne
  · obtain ⟨rfl, h4⟩ := h3 y hy
    exact ⟨h1, x', h2, h4⟩

end Verif
