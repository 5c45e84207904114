import Verif.Lemmas.Claims
import Verif.Spec.Aside
/-!
What a mining has of its own does not matter to the pool or to other minings.
-/

namespace Verif

open Spec

variable {env : Env}

/-- Two minings that can differ in stake and rewards. -/
def Kin (m n : Mining) : Prop :=
  ({ m with index := 0, unclaimed := 0, share := 0, diffs := [] } : Mining) =
    { n with index := 0, unclaimed := 0, share := 0, diffs := [] }

theorem Kin.refl (m : Mining) : Kin m m := Eq.refl _

theorem Kin.symm {m n : Mining} (h : Kin m n) : Kin n m := Eq.symm h

theorem Kin.trans {m n o : Mining} (h : Kin m n) (h' : Kin n o) : Kin m o := Eq.trans h h'

theorem Kin.others {m n : Mining} (h : Kin m n) : m.stakeFromOthers = n.stakeFromOthers := by
  unfold Kin at h; simp only [Mining.mk.injEq] at h; simp [h]

theorem Kin.holder {m n : Mining} (h : Kin m n) : SameHolder m n := by
  unfold Kin at h; simp only [Mining.mk.injEq] at h
  constructor <;> simp [h]

theorem Kin.change {m n : Mining} (h : Kin m n) (i i' u u' s s' : Nat) (x x' : SMap) :
    Kin { m with index := i, unclaimed := u, share := s, diffs := x }
      { n with index := i', unclaimed := u', share := s', diffs := x' } := h

theorem Kin.set {m n : Mining} (h : Kin m n) (a : Nat) :
    Kin { m with stakeFromOthers := a } { n with stakeFromOthers := a } := by
  unfold Kin at h ⊢; simp only [Mining.mk.injEq] at h ⊢; simp [h]

theorem refresh_kin {cum : SMap} (hc : History cum) {now : Nat} {m m1 : Mining} (hm : MiningOk m)
    (h : m.refreshRewards now cum = .ok m1) : Kin m1 m := by
  obtain ⟨c, rfl, -⟩ := refresh_ok hc hm.sorted h
  exact Eq.refl _

theorem decrease_kin {m m' : Mining} {n : Nat} (h : m.decreaseRewards n = .ok m') : Kin m' m := by
  rw [decreaseRewards_ok] at h
  rcases h with ⟨-, rfl⟩ | ⟨-, -, rfl⟩ <;> exact Eq.refl _

/-- The same for optional minings. -/
def OptKin : Option Mining → Option Mining → Prop
  | none, none => True
  | some x, some y => Kin x y
  | _, _ => False

theorem add_kin {now a : Nat} {p p1 p2 : Pool} {d e d1 e1 : Option Mining} (hc : History p.cumulative)
    (hd : ∀ x, d = some x → MiningOk x) (he : ∀ x, e = some x → MiningOk x) (hs : OptKin d e)
    (h1 : p.withDelegate d (Pool.delegateAdd now a) = .ok (p1, d1))
    (h2 : p.withDelegate e (Pool.delegateAdd now a) = .ok (p2, e1)) :
    p1 = p2 ∧ OptKin d1 e1 ∧ (d = e → d1 = e1) := by
  refine ⟨?_, ?_, fun h => by subst h; rw [h1] at h2; cases h2; rfl⟩ <;>
  · cases d with
    | none =>
      cases e with
      | none => rw [withDelegate_none] at h1 h2; obtain ⟨rfl, rfl⟩ := h1; obtain ⟨rfl, rfl⟩ := h2; first | rfl | trivial
      | some y => exact hs.elim
    | some x =>
      cases e with
      | none => exact hs.elim
      | some y =>
        rw [withDelegate_some] at h1 h2
        obtain ⟨x', h1, rfl⟩ := h1
        obtain ⟨y', h2, rfl⟩ := h2
        rw [delegateAdd_ok] at h1 h2
        obtain ⟨-, -, g1, rfl⟩ := h1
        obtain ⟨-, -, g2, rfl⟩ := h2
        first
          | rfl
          | (have hs' : Kin x y := hs
             rw [hs'.others] at g1
             exact ((refresh_kin hc (m := { x with stakeFromOthers := y.stakeFromOthers + a }) ⟨(hd x rfl).1, (hd x rfl).2⟩ g1).trans
               (hs'.set _)).trans (refresh_kin hc (m := { y with stakeFromOthers := y.stakeFromOthers + a })
                 ⟨(he y rfl).1, (he y rfl).2⟩ g2).symm)

theorem sub_kin {now a : Nat} {p p1 p2 : Pool} {d e d1 e1 : Option Mining} (hc : History p.cumulative)
    (hd : ∀ x, d = some x → MiningOk x) (he : ∀ x, e = some x → MiningOk x) (hs : OptKin d e)
    (h1 : p.withDelegate d (Pool.delegateSub now a) = .ok (p1, d1))
    (h2 : p.withDelegate e (Pool.delegateSub now a) = .ok (p2, e1)) :
    p1 = p2 ∧ OptKin d1 e1 ∧ (d = e → d1 = e1) := by
  refine ⟨?_, ?_, fun h => by subst h; rw [h1] at h2; cases h2; rfl⟩ <;>
  · cases d with
    | none =>
      cases e with
      | none => rw [withDelegate_none] at h1 h2; obtain ⟨rfl, rfl⟩ := h1; obtain ⟨rfl, rfl⟩ := h2; first | rfl | trivial
      | some y => exact hs.elim
    | some x =>
      cases e with
      | none => exact hs.elim
      | some y =>
        rw [withDelegate_some] at h1 h2
        obtain ⟨x', h1, rfl⟩ := h1
        obtain ⟨y', h2, rfl⟩ := h2
        rw [delegateSub_ok] at h1 h2
        obtain ⟨-, -, g1, rfl⟩ := h1
        obtain ⟨-, -, g2, rfl⟩ := h2
        first
          | rfl
          | (have hs' : Kin x y := hs
             rw [hs'.others] at g1
             exact ((refresh_kin hc (m := { x with stakeFromOthers := y.stakeFromOthers - a }) ⟨(hd x rfl).1, (hd x rfl).2⟩ g1).trans
               (hs'.set _)).trans (refresh_kin hc (m := { y with stakeFromOthers := y.stakeFromOthers - a })
                 ⟨(he y rfl).1, (he y rfl).2⟩ g2).symm)

/-- What is shown of every operation. -/
structure OpKin (p1 p2 : Pool) (m n m' n' : Mining) (d e d' e' : Option Mining) : Prop where
  pool : p1 = p2
  mining : Kin m' n'
  sameMining : m = n → m' = n'
  delegate : OptKin d' e'
  sameDelegate : d = e → d' = e'

theorem deposit_kin {caps : Caps} {now a : Nat} {l : LockupPeriod} {p p1 p2 : Pool} {m n m' n' : Mining}
    {d e d' e' : Option Mining} (hp : PoolOk now p) (hm : MiningOk m) (hn : MiningOk n)
    (hd : ∀ x, d = some x → MiningOk x) (he : ∀ x, e = some x → MiningOk x) (hs : Kin m n) (ho : OptKin d e)
    (h1 : p.deposit caps now m a l d = .ok (p1, m', d')) (h2 : p.deposit caps now n a l e = .ok (p2, n', e')) :
    OpKin p1 p2 m n m' n' d e d' e' := by
  obtain ⟨m1, x, r1, e1, -, -, -, -, -, -, rfl, k1⟩ := deposit_ok (refresh_sorted hp hm) h1
  obtain ⟨n1, y, r2, e2, -, -, -, -, -, -, rfl, k2⟩ := deposit_ok (refresh_sorted hp hn) h2
  rw [e1] at e2; cases e2
  have hr := ((refresh_kin hp.history hm r1).trans hs).trans (refresh_kin hp.history hn r2).symm
  obtain ⟨g1, g2, g3⟩ := add_kin (p := { p with
          totalShare := p.totalShare + a * l.multiplier,
          diffs := addAt caps.pool p.diffs x (a * l.multiplier - a) }) hp.history hd he ho k1 k2
  refine ⟨g1, hr, ?_, g2, g3⟩
  rintro rfl
  rw [r1] at r2
  have := Except.ok.inj r2
  rw [← this]

theorem withdraw_kin {now a : Nat} {p p1 p2 : Pool} {m n m' n' : Mining}
    {d e d' e' : Option Mining} (hp : PoolOk now p) (hm : MiningOk m) (hn : MiningOk n)
    (hd : ∀ x, d = some x → MiningOk x) (he : ∀ x, e = some x → MiningOk x) (hs : Kin m n) (ho : OptKin d e)
    (h1 : p.withdraw now m a d = .ok (p1, m', d')) (h2 : p.withdraw now n a e = .ok (p2, n', e')) :
    OpKin p1 p2 m n m' n' d e d' e' := by
  obtain ⟨m1, r1, -, -, rfl, k1⟩ := withdraw_ok hp.sorted h1
  obtain ⟨n1, r2, -, -, rfl, k2⟩ := withdraw_ok hp.sorted h2
  have hr := ((refresh_kin hp.history hm r1).trans hs).trans (refresh_kin hp.history hn r2).symm
  obtain ⟨g1, g2, g3⟩ := sub_kin (p := { p with
          totalShare := p.totalShare - a - dueBy p.diffs (bod now), diffs := after p.diffs (bod now) })
    hp.history hd he ho k1 k2
  refine ⟨g1, hr, ?_, g2, g3⟩
  rintro rfl
  rw [r1] at r2
  have := Except.ok.inj r2
  rw [← this]

theorem slash_kin {now x y : Nat} {z : Option Nat} {p p1 p2 : Pool} {m n m' n' : Mining} (hp : PoolOk now p)
    (hm : MiningOk m) (hn : MiningOk n) (hs : Kin m n) (h1 : p.slash now m x y z = .ok (p1, m'))
    (h2 : p.slash now n x y z = .ok (p2, n')) : OpKin p1 p2 m n m' n' none none none none := by
  have he : m = n → m' = n' := by rintro rfl; rw [h1] at h2; cases h2; rfl
  obtain ⟨m1, r1, -, -, w1⟩ := slash_ok hp.sorted (refresh_sorted hp hm) h1
  obtain ⟨n1, r2, -, -, w2⟩ := slash_ok hp.sorted (refresh_sorted hp hn) h2
  have hr := ((refresh_kin hp.history hm r1).trans hs).trans (refresh_kin hp.history hn r2).symm
  rcases w1 with ⟨e1, rfl, rfl⟩ | ⟨ts, om, op, rfl, -, g1, g2, -, -, rfl, rfl⟩
  · rcases w2 with ⟨-, rfl, rfl⟩ | ⟨ts, om, op, e2, -⟩
    · exact ⟨rfl, hr, he, trivial, fun _ => rfl⟩
    · rw [e1] at e2; cases e2
  · rcases w2 with ⟨e2, -⟩ | ⟨ts, om', op', e2, -, g3, g4, -, -, rfl, rfl⟩
    · cases e2
    · cases e2
      rw [g2] at g4; cases g4
      exact ⟨rfl, hr, he, trivial, fun _ => rfl⟩

theorem extend_kin {caps : Caps} {now ts b a : Nat} {ol nl : LockupPeriod} {p p1 p2 : Pool} {m n m' n' : Mining}
    {d e d' e' : Option Mining} (hp : PoolOk now p) (hm : MiningOk m) (hn : MiningOk n)
    (hd : ∀ x, d = some x → MiningOk x) (he : ∀ x, e = some x → MiningOk x) (hs : Kin m n) (ho : OptKin d e)
    (h1 : p.extend caps now m ol nl ts b a d = .ok (p1, m', d'))
    (h2 : p.extend caps now n ol nl ts b a e = .ok (p2, n', e')) : OpKin p1 p2 m n m' n' d e d' e' := by
  obtain ⟨m1, oe, q1, m2, p3, d3, r1, o1, c1, -, w1, x1⟩ := extend_ok (refresh_sorted hp hm) h1
  obtain ⟨n1, oe', q2, n2, q3, e3, r2, o2, c2, -, w2, x2⟩ := extend_ok (refresh_sorted hp hn) h2
  have om1 : MiningOk m1 := (refresh_same hp.history hm r1).2.1
  have on1 : MiningOk n1 := (refresh_same hp.history hn r2).2.1
  have hmn : m = n → m1 = n1 := by rintro rfl; rw [r1] at r2; cases r2; rfl
  have hr := ((refresh_kin hp.history hm r1).trans hs).trans (refresh_kin hp.history hn r2).symm
  have hoe : oe = oe' := by
    rcases o1 with ⟨z1, rfl⟩ | ⟨z1, z2⟩
    · rcases o2 with ⟨-, rfl⟩ | ⟨z3, -⟩
      · rfl
      · exact absurd z1 z3
    · rcases o2 with ⟨z3, -⟩ | ⟨-, z3⟩
      · exact absurd z3 z1
      · rw [z2] at z3; cases z3; rfl
  subst hoe
  have hmid : Kin m2 n2 ∧ q1 = q2 ∧ MiningOk m2 ∧ MiningOk n2 ∧ (m = n → m2 = n2) ∧ PoolOk now q1 := by
    rcases c1 with ⟨y1, -, -, ⟨old, g1, -, rfl⟩, -, -, rfl⟩ | ⟨y1, -, -, rfl, rfl⟩
    · rcases c2 with ⟨-, -, -, ⟨old', g2, -, rfl⟩, -, -, rfl⟩ | ⟨y2, -⟩
      · refine ⟨hr, rfl, ⟨SMap.put_sorted om1.sorted _ _, put_aligned om1.aligned g1⟩,
          ⟨SMap.put_sorted on1.sorted _ _, put_aligned on1.aligned g2⟩, fun h => ?_, (Quiet.mk'' hp).ok⟩
        obtain rfl := hmn h
        rw [g1] at g2; cases g2; rfl
      · exact absurd y1 y2
    · rcases c2 with ⟨y2, -⟩ | ⟨-, -, -, rfl, rfl⟩
      · exact absurd y2 y1
      · refine ⟨hr, rfl, ⟨om1.1, om1.2⟩, ⟨on1.1, on1.2⟩, fun h => ?_, (Quiet.mk'' hp).ok⟩
        rw [← hmn h]
  obtain ⟨hk, rfl, ok1, ok2, heq, hq⟩ := hmid
  obtain ⟨a1, a2⟩ := withSub_same hq hd w1
  obtain ⟨-, b2⟩ := withSub_same hq he w2
  obtain ⟨rfl, g2, g3⟩ := sub_kin hq.history hd he ho w1 w2
  obtain ⟨k1, k2, k3, k4, k5⟩ := deposit_kin a1.ok ok1 ok2 (optRest_ok a2) (optRest_ok b2) hk g2 x1 x2
  exact ⟨k1, k2, fun h => k3 (heq h), k4, fun h => k5 (g3 h)⟩

theorem StakeOp.kin {caps : Caps} {now : Nat} {i : Ix} {p p1 p2 : Pool} {m n m' n' : Mining}
    {d e d' e' : Option Mining} (hp : PoolOk now p) (hm : MiningOk m) (hn : MiningOk n)
    (hd : ∀ x, d = some x → MiningOk x) (he : ∀ x, e = some x → MiningOk x) (hs : Kin m n) (ho : OptKin d e)
    (h1 : StakeOp caps now p m d p1 m' d' i) (h2 : StakeOp caps now p n e p2 n' e' i) : OpKin p1 p2 m n m' n' d e d' e' := by
  cases i with
  | depositMining a l o dl => exact deposit_kin hp hm hn hd he hs ho h1 h2
  | withdrawMining a o dl => exact withdraw_kin hp hm hn hd he hs ho h1 h2
  | extendStake ol nl ts b a o dl => exact extend_kin hp hm hn hd he hs ho h1 h2
  | slash o n mu ex =>
    obtain ⟨h1, rfl, rfl⟩ := h1
    obtain ⟨h2, rfl, rfl⟩ := h2
    exact slash_kin hp hm hn hs h1 h2
  | _ => exact h1.elim

end Verif
