import Verif.Lemmas.AsideRun
import Verif.Spec.Group
/-!
What an operation does to a pool depends neither on the mining nor on the delegate.
-/

namespace Verif

open Spec

variable {env : Env}

theorem add_some {now a : Nat} {p p1 p2 : Pool} {d e d1 e1 : Option Mining} (hs : d.isSome = e.isSome)
    (h1 : p.withDelegate d (Pool.delegateAdd now a) = .ok (p1, d1))
    (h2 : p.withDelegate e (Pool.delegateAdd now a) = .ok (p2, e1)) : p1 = p2 := by
  cases d with
  | none =>
    cases e with
    | none => rw [withDelegate_none] at h1 h2; rw [h1.1, h2.1]
    | some y => cases hs
  | some x =>
    cases e with
    | none => cases hs
    | some y =>
      rw [withDelegate_some] at h1 h2
      obtain ⟨x', h1, rfl⟩ := h1
      obtain ⟨y', h2, rfl⟩ := h2
      rw [delegateAdd_ok] at h1 h2
      rw [h1.2.2.2, h2.2.2.2]

theorem sub_some {now a : Nat} {p p1 p2 : Pool} {d e d1 e1 : Option Mining} (hs : d.isSome = e.isSome)
    (h1 : p.withDelegate d (Pool.delegateSub now a) = .ok (p1, d1))
    (h2 : p.withDelegate e (Pool.delegateSub now a) = .ok (p2, e1)) : p1 = p2 := by
  cases d with
  | none =>
    cases e with
    | none => rw [withDelegate_none] at h1 h2; rw [h1.1, h2.1]
    | some y => cases hs
  | some x =>
    cases e with
    | none => cases hs
    | some y =>
      rw [withDelegate_some] at h1 h2
      obtain ⟨x', h1, rfl⟩ := h1
      obtain ⟨y', h2, rfl⟩ := h2
      rw [delegateSub_ok] at h1 h2
      rw [h1.2.2.2, h2.2.2.2]

/-- Delegating away and to another leaves the pool as it was. -/
theorem sub_add {now a : Nat} {p p1 p2 : Pool} {x y : Mining} {d1 e1 : Option Mining}
    (h1 : p.withDelegate (some x) (Pool.delegateSub now a) = .ok (p1, d1))
    (h2 : p1.withDelegate (some y) (Pool.delegateAdd now a) = .ok (p2, e1)) : p2 = p := by
  rw [withDelegate_some] at h1 h2
  obtain ⟨x', h1, rfl⟩ := h1
  obtain ⟨y', h2, rfl⟩ := h2
  rw [delegateSub_ok] at h1
  rw [delegateAdd_ok] at h2
  obtain ⟨-, g1, -, rfl⟩ := h1
  obtain ⟨-, -, -, rfl⟩ := h2
  cases p
  simp only [Pool.mk.injEq, true_and, and_true]
  exact Nat.sub_add_cancel g1

theorem SameDelegate.some {d e : Option Mining} (h : SameDelegate d e) : e.isSome = d.isSome := by
  cases d <;> cases e <;> simp_all [SameDelegate]

/-- What is shown of every operation. -/
structure OpSame (p1 p2 : Pool) (m n m' n' : Mining) (d e d' e' : Option Mining) : Prop where
  pool : p1 = p2
  sameMining : m = n → m' = n'
  sameDelegate : d = e → d' = e'

theorem deposit_some {caps : Caps} {now a : Nat} {l : LockupPeriod} {p p1 p2 : Pool} {m n m' n' : Mining}
    {d e d' e' : Option Mining} (hp : PoolOk now p) (hm : MiningOk m) (hn : MiningOk n) (ho : d.isSome = e.isSome)
    (h1 : p.deposit caps now m a l d = .ok (p1, m', d')) (h2 : p.deposit caps now n a l e = .ok (p2, n', e')) :
    OpSame p1 p2 m n m' n' d e d' e' := by
  obtain ⟨m1, x, r1, e1, -, -, -, -, -, -, rfl, k1⟩ := deposit_ok (refresh_sorted hp hm) h1
  obtain ⟨n1, y, r2, e2, -, -, -, -, -, -, rfl, k2⟩ := deposit_ok (refresh_sorted hp hn) h2
  rw [e1] at e2; cases e2
  refine ⟨add_some ho k1 k2, ?_, ?_⟩
  · rintro rfl
    rw [r1] at r2
    have := Except.ok.inj r2
    rw [← this]
  · rintro rfl
    rw [k1] at k2
    exact (Prod.mk.inj (Except.ok.inj k2)).2

theorem withdraw_some {now a : Nat} {p p1 p2 : Pool} {m n m' n' : Mining}
    {d e d' e' : Option Mining} (hp : PoolOk now p) (ho : d.isSome = e.isSome)
    (h1 : p.withdraw now m a d = .ok (p1, m', d')) (h2 : p.withdraw now n a e = .ok (p2, n', e')) :
    OpSame p1 p2 m n m' n' d e d' e' := by
  obtain ⟨m1, r1, -, -, rfl, k1⟩ := withdraw_ok hp.sorted h1
  obtain ⟨n1, r2, -, -, rfl, k2⟩ := withdraw_ok hp.sorted h2
  refine ⟨sub_some ho k1 k2, ?_, ?_⟩
  · rintro rfl
    rw [r1] at r2
    have := Except.ok.inj r2
    rw [← this]
  · rintro rfl
    rw [k1] at k2
    exact (Prod.mk.inj (Except.ok.inj k2)).2

theorem slash_some {now x y : Nat} {z : Option Nat} {p p1 p2 : Pool} {m n m' n' : Mining} (hp : PoolOk now p)
    (hm : MiningOk m) (hn : MiningOk n) (h1 : p.slash now m x y z = .ok (p1, m'))
    (h2 : p.slash now n x y z = .ok (p2, n')) : OpSame p1 p2 m n m' n' none none none none := by
  have he : m = n → m' = n' := by rintro rfl; rw [h1] at h2; cases h2; rfl
  obtain ⟨m1, r1, -, -, w1⟩ := slash_ok hp.sorted (refresh_sorted hp hm) h1
  obtain ⟨n1, r2, -, -, w2⟩ := slash_ok hp.sorted (refresh_sorted hp hn) h2
  rcases w1 with ⟨e1, rfl, rfl⟩ | ⟨ts, om, op, rfl, -, g1, g2, -, -, rfl, rfl⟩
  · rcases w2 with ⟨-, rfl, rfl⟩ | ⟨ts, om, op, e2, -⟩
    · exact ⟨rfl, he, fun _ => rfl⟩
    · rw [e1] at e2; cases e2
  · rcases w2 with ⟨e2, -⟩ | ⟨ts, om', op', e2, -, g3, g4, -, -, rfl, rfl⟩
    · cases e2
    · cases e2
      rw [g2] at g4; cases g4
      exact ⟨rfl, he, fun _ => rfl⟩

theorem extend_some {caps : Caps} {now ts b a : Nat} {ol nl : LockupPeriod} {p p1 p2 : Pool} {m n m' n' : Mining}
    {d e d' e' : Option Mining} (hp : PoolOk now p) (hm : MiningOk m) (hn : MiningOk n)
    (hd : ∀ x, d = some x → MiningOk x) (he : ∀ x, e = some x → MiningOk x) (ho : d.isSome = e.isSome)
    (h1 : p.extend caps now m ol nl ts b a d = .ok (p1, m', d'))
    (h2 : p.extend caps now n ol nl ts b a e = .ok (p2, n', e')) : OpSame p1 p2 m n m' n' d e d' e' := by
  obtain ⟨m1, oe, q1, m2, p3, d3, r1, o1, c1, -, w1, x1⟩ := extend_ok (refresh_sorted hp hm) h1
  obtain ⟨n1, oe', q2, n2, q3, e3, r2, o2, c2, -, w2, x2⟩ := extend_ok (refresh_sorted hp hn) h2
  have om1 : MiningOk m1 := (refresh_same hp.history hm r1).2.1
  have on1 : MiningOk n1 := (refresh_same hp.history hn r2).2.1
  have hmn : m = n → m1 = n1 := by rintro rfl; rw [r1] at r2; cases r2; rfl
  have hoe : oe = oe' := by
    rcases o1 with ⟨z1, rfl⟩ | ⟨z1, z2⟩
    · rcases o2 with ⟨-, rfl⟩ | ⟨z3, -⟩
      · rfl
      · exact absurd z1 z3
    · rcases o2 with ⟨z3, -⟩ | ⟨-, z3⟩
      · exact absurd z3 z1
      · rw [z2] at z3; cases z3; rfl
  subst hoe
  have hmid : q1 = q2 ∧ MiningOk m2 ∧ MiningOk n2 ∧ (m = n → m2 = n2) ∧ PoolOk now q1 := by
    rcases c1 with ⟨y1, -, -, ⟨old, g1, -, rfl⟩, -, -, rfl⟩ | ⟨y1, -, -, rfl, rfl⟩
    · rcases c2 with ⟨-, -, -, ⟨old', g2, -, rfl⟩, -, -, rfl⟩ | ⟨y2, -⟩
      · refine ⟨rfl, ⟨SMap.put_sorted om1.sorted _ _, put_aligned om1.aligned g1⟩,
          ⟨SMap.put_sorted on1.sorted _ _, put_aligned on1.aligned g2⟩, fun h => ?_, (Quiet.mk'' hp).ok⟩
        obtain rfl := hmn h
        rw [g1] at g2; cases g2; rfl
      · exact absurd y1 y2
    · rcases c2 with ⟨y2, -⟩ | ⟨-, -, -, rfl, rfl⟩
      · exact absurd y2 y1
      · refine ⟨rfl, ⟨om1.1, om1.2⟩, ⟨on1.1, on1.2⟩, fun h => ?_, (Quiet.mk'' hp).ok⟩
        rw [← hmn h]
  obtain ⟨rfl, ok1, ok2, heq, hq⟩ := hmid
  obtain ⟨a1, a2⟩ := withSub_same hq hd w1
  obtain ⟨-, b2⟩ := withSub_same hq he w2
  obtain rfl := sub_some ho w1 w2
  have hde : d = e → d3 = e3 := by
    rintro rfl
    rw [w1] at w2
    exact (Prod.mk.inj (Except.ok.inj w2)).2
  obtain ⟨k1, k2, k3⟩ := deposit_some a1.ok ok1 ok2 (by rw [a2.some, b2.some, ho]) x1 x2
  exact ⟨k1, fun h => k2 (heq h), fun h => k3 (hde h)⟩

theorem StakeOp.twice {caps : Caps} {now : Nat} {i i' : Ix} {p p1 p2 : Pool} {m n m' n' : Mining}
    {d e d' e' : Option Mining} (hp : PoolOk now p) (hm : MiningOk m) (hn : MiningOk n)
    (hd : ∀ x, d = some x → MiningOk x) (he : ∀ x, e = some x → MiningOk x) (ho : d.isSome = e.isSome)
    (hi : SameTerms i i') (h1 : StakeOp caps now p m d p1 m' d' i) (h2 : StakeOp caps now p n e p2 n' e' i') :
    OpSame p1 p2 m n m' n' d e d' e' := by
  cases i with
  | depositMining a l o dl =>
    cases i' <;> first | exact hi.elim | skip
    obtain ⟨rfl, rfl⟩ := hi
    exact deposit_some hp hm hn ho h1 h2
  | withdrawMining a o dl =>
    cases i' <;> first | exact hi.elim | skip
    obtain rfl := hi
    exact withdraw_some hp ho h1 h2
  | extendStake ol nl ts b a o dl =>
    cases i' <;> first | exact hi.elim | skip
    obtain ⟨rfl, rfl, rfl, rfl, rfl⟩ := hi
    exact extend_some hp hm hn hd he ho h1 h2
  | slash o n mu ex =>
    cases i' <;> first | exact hi.elim | skip
    obtain ⟨rfl, rfl, rfl⟩ := hi
    obtain ⟨h1, rfl, rfl⟩ := h1
    obtain ⟨h2, rfl, rfl⟩ := h2
    exact slash_some hp hm hn h1 h2
  | _ => exact h1.elim

theorem StakeOp.same {caps : Caps} {now : Nat} {i : Ix} {p p1 : Pool} {m m' : Mining}
    {d d' : Option Mining} (hp : PoolOk now p) (hm : MiningOk m) (hd : ∀ x, d = some x → MiningOk x)
    (h : StakeOp caps now p m d p1 m' d' i) : SameMining m m' ∧ SameDelegate d d' := by
  cases i with
  | depositMining a l o dl => obtain ⟨-, h1, -, -, h2⟩ := deposit_same hp hm hd h; exact ⟨h1, h2⟩
  | withdrawMining a o dl => obtain ⟨-, h1, -, -, h2⟩ := withdraw_same hp hm hd h; exact ⟨h1, h2⟩
  | extendStake ol nl ts b a o dl => obtain ⟨-, h1, -, -, h2⟩ := extend_same hp hm hd h; exact ⟨h1, h2⟩
  | slash o n mu ex =>
    obtain ⟨h, rfl, rfl⟩ := h
    obtain ⟨-, h1, -⟩ := slash_same hp hm h; exact ⟨h1, trivial⟩
  | _ => exact h.elim

end Verif
