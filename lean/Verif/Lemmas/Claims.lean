import Verif.Lemmas.Life
import Verif.Lemmas.Exact
import Verif.Lemmas.Divide
import Verif.Spec.Claims
/-!
Claiming changes nothing but what is paid and what is owed.
-/

namespace Verif

open Spec

variable {env : Env}

/-- Two minings with the same stake from today on, whatever they have been paid. -/
structure StakeLike (now : Nat) (m n : Mining) : Prop where
  share : m.share + dueBy n.diffs (midnight now) = n.share + dueBy m.diffs (midnight now)
  locks : after m.diffs (midnight now) = after n.diffs (midnight now)
  rest : ({ m with index := 0, unclaimed := 0, share := 0, diffs := [] } : Mining) =
    { n with index := 0, unclaimed := 0, share := 0, diffs := [] }

theorem StakeLike.refl (now : Nat) (m : Mining) : StakeLike now m m := ⟨rfl, rfl, rfl⟩

theorem StakeLike.symm {now : Nat} {m n : Mining} (h : StakeLike now m n) : StakeLike now n m :=
  ⟨h.share.symm, h.locks.symm, h.rest.symm⟩

theorem StakeLike.trans {now : Nat} {m n o : Mining} (h : StakeLike now m n) (h' : StakeLike now n o) : StakeLike now m o :=
  ⟨by have := h.share; have := h'.share; omega, h.locks.trans h'.locks, h.rest.trans h'.rest⟩

theorem StakeLike.others {now : Nat} {m n : Mining} (h : StakeLike now m n) : m.stakeFromOthers = n.stakeFromOthers := by
  have := h.rest; simp only [Mining.mk.injEq] at this; simp [this]

theorem StakeLike.pool {now : Nat} {m n : Mining} (h : StakeLike now m n) : m.rewardPool = n.rewardPool := by
  have := h.rest; simp only [Mining.mk.injEq] at this; simp [this]

theorem StakeLike.kind {now : Nat} {m n : Mining} (h : StakeLike now m n) : m.accountType = n.accountType := by
  have := h.rest; simp only [Mining.mk.injEq] at this; simp [this]

theorem StakeLike.later {now t : Nat} {m n : Mining} (h : StakeLike now m n) (ht : midnight now ≤ midnight t) :
    StakeLike t m n := by
  refine ⟨?_, ?_, h.rest⟩
  · have h1 := dueBy_after m.diffs ht
    have h2 := dueBy_after n.diffs ht
    have h3 := h.share
    rw [h.locks] at h1
    omega
  · rw [← after_after m.diffs ht, ← after_after n.diffs ht, h.locks]

theorem StakeLike.earning {now x : Nat} {m n : Mining} (h : StakeLike now m n) (hx : midnight now ≤ x) :
    earningOn m x = earningOn n x := by
  have h1 := dueBy_after m.diffs hx
  have h2 := dueBy_after n.diffs hx
  have h3 := h.share
  have h4 := h.others
  rw [h.locks] at h1
  unfold earningOn
  omega

/-- The same mining but for what it is paid. -/
def Rest (m n : Mining) : Prop := ∃ i u, m = { n with index := i, unclaimed := u }

theorem Rest.refl (m : Mining) : Rest m m := ⟨m.index, m.unclaimed, rfl⟩

theorem Rest.same {m n : Mining} (h : Rest m n) (now : Nat) : StakeLike now m n := by
  obtain ⟨i, u, rfl⟩ := h; exact ⟨rfl, rfl, rfl⟩

theorem refresh_like {cum : SMap} (hc : History cum) {now : Nat} {m m1 : Mining} (hm : MiningOk m)
    (h : m.refreshRewards now cum = .ok m1) : StakeLike now m1 m := by
  obtain ⟨c, rfl, hb, -⟩ := refresh_ok hc hm.sorted h
  rw [bod_eq_midnight] at *
  refine ⟨?_, after_after _ (Nat.le_refl _), rfl⟩
  have h1 := dueBy_after m.diffs (Nat.le_refl (midnight now))
  show m.share - _ + _ = m.share + dueBy (after m.diffs _) _
  omega

theorem refresh_rest {cum : SMap} (hc : History cum) {now : Nat} {m n m1 n1 : Mining} (hm : MiningOk m) (hn : MiningOk n)
    (hs : StakeLike now m n) (h1 : m.refreshRewards now cum = .ok m1) (h2 : n.refreshRewards now cum = .ok n1) : Rest m1 n1 := by
  obtain ⟨c, rfl, hb, -⟩ := refresh_ok hc hm.sorted h1
  obtain ⟨c', rfl, hb', -⟩ := refresh_ok hc hn.sorted h2
  rw [bod_eq_midnight] at *
  refine ⟨indexBefore cum now, m.unclaimed + c, ?_⟩
  have h3 := hs.share
  have h4 : m.share - dueBy m.diffs (midnight now) = n.share - dueBy n.diffs (midnight now) := by omega
  have h5 := hs.rest
  rw [h4, hs.locks]
  cases m; cases n
  simp only [Mining.mk.injEq] at h5 ⊢
  simp [h5]

/-- The same optional mining from today on. -/
def OptStake (now : Nat) : Option Mining → Option Mining → Prop
  | none, none => True
  | some x, some y => StakeLike now x y
  | _, _ => False

/-- The same optional mining but for what it is paid. -/
def OptRest : Option Mining → Option Mining → Prop
  | none, none => True
  | some x, some y => Rest x y
  | _, _ => False

theorem OptRest.same {d e : Option Mining} (h : OptRest d e) (now : Nat) : OptStake now d e := by
  cases d <;> cases e <;> first | trivial | exact h.elim | exact Rest.same h now

theorem StakeLike.set {now : Nat} {m n : Mining} (h : StakeLike now m n) (a : Nat) :
    StakeLike now { m with stakeFromOthers := a } { n with stakeFromOthers := a } := by
  refine ⟨h.share, h.locks, ?_⟩
  have := h.rest
  simp only [Mining.mk.injEq] at this ⊢
  simp [this]

theorem add_rest {now a : Nat} {p p1 p2 : Pool} {d e d1 e1 : Option Mining} (hc : History p.cumulative)
    (hd : ∀ x, d = some x → MiningOk x) (he : ∀ x, e = some x → MiningOk x) (hs : OptStake now d e)
    (h1 : p.withDelegate d (Pool.delegateAdd now a) = .ok (p1, d1))
    (h2 : p.withDelegate e (Pool.delegateAdd now a) = .ok (p2, e1)) :
    p1 = p2 ∧ OptRest d1 e1 ∧ (d = e → d1 = e1) := by
  refine ⟨?_, ?_, fun h => by subst h; rw [h1] at h2; cases h2; rfl⟩ <;>
  · cases d with
    | none =>
      cases e with
      | none => rw [withDelegate_none] at h1 h2; obtain ⟨rfl, rfl⟩ := h1; obtain ⟨rfl, rfl⟩ := h2; first | rfl | trivial
      | some y => exact hs.elim
    | some x =>
      cases e with
      | none => exact hs.elim
      | some y =>
        rw [withDelegate_some] at h1 h2
        obtain ⟨x', h1, rfl⟩ := h1
        obtain ⟨y', h2, rfl⟩ := h2
        rw [delegateAdd_ok] at h1 h2
        obtain ⟨-, -, g1, rfl⟩ := h1
        obtain ⟨-, -, g2, rfl⟩ := h2
        first
          | rfl
          | (have hs' : StakeLike now x y := hs
             rw [hs'.others] at g1
             exact refresh_rest hc (m := { x with stakeFromOthers := y.stakeFromOthers + a }) (n := { y with stakeFromOthers := y.stakeFromOthers + a })
               ⟨(hd x rfl).1, (hd x rfl).2⟩ ⟨(he y rfl).1, (he y rfl).2⟩ (hs'.set _) g1 g2)

theorem sub_rest {now a : Nat} {p p1 p2 : Pool} {d e d1 e1 : Option Mining} (hc : History p.cumulative)
    (hd : ∀ x, d = some x → MiningOk x) (he : ∀ x, e = some x → MiningOk x) (hs : OptStake now d e)
    (h1 : p.withDelegate d (Pool.delegateSub now a) = .ok (p1, d1))
    (h2 : p.withDelegate e (Pool.delegateSub now a) = .ok (p2, e1)) :
    p1 = p2 ∧ OptRest d1 e1 ∧ (d = e → d1 = e1) := by
  refine ⟨?_, ?_, fun h => by subst h; rw [h1] at h2; cases h2; rfl⟩ <;>
  · cases d with
    | none =>
      cases e with
      | none => rw [withDelegate_none] at h1 h2; obtain ⟨rfl, rfl⟩ := h1; obtain ⟨rfl, rfl⟩ := h2; first | rfl | trivial
      | some y => exact hs.elim
    | some x =>
      cases e with
      | none => exact hs.elim
      | some y =>
        rw [withDelegate_some] at h1 h2
        obtain ⟨x', h1, rfl⟩ := h1
        obtain ⟨y', h2, rfl⟩ := h2
        rw [delegateSub_ok] at h1 h2
        obtain ⟨-, -, g1, rfl⟩ := h1
        obtain ⟨-, -, g2, rfl⟩ := h2
        first
          | rfl
          | (have hs' : StakeLike now x y := hs
             rw [hs'.others] at g1
             exact refresh_rest hc (m := { x with stakeFromOthers := y.stakeFromOthers - a }) (n := { y with stakeFromOthers := y.stakeFromOthers - a })
               ⟨(hd x rfl).1, (hd x rfl).2⟩ ⟨(he y rfl).1, (he y rfl).2⟩ (hs'.set _) g1 g2)

/-- What is shown of every operation. -/
structure OpRest (p1 p2 : Pool) (m n m' n' : Mining) (d e d' e' : Option Mining) : Prop where
  pool : p1 = p2
  mining : Rest m' n'
  sameMining : m = n → m' = n'
  delegate : OptRest d' e'
  sameDelegate : d = e → d' = e'

theorem deposit_rest {caps : Caps} {now a : Nat} {l : LockupPeriod} {p p1 p2 : Pool} {m n m' n' : Mining}
    {d e d' e' : Option Mining} (hp : PoolOk now p) (hm : MiningOk m) (hn : MiningOk n)
    (hd : ∀ x, d = some x → MiningOk x) (he : ∀ x, e = some x → MiningOk x) (hs : StakeLike now m n) (ho : OptStake now d e)
    (h1 : p.deposit caps now m a l d = .ok (p1, m', d')) (h2 : p.deposit caps now n a l e = .ok (p2, n', e')) :
    OpRest p1 p2 m n m' n' d e d' e' := by
  obtain ⟨m1, x, r1, e1, -, -, -, -, -, -, rfl, k1⟩ := deposit_ok (refresh_sorted hp hm) h1
  obtain ⟨n1, y, r2, e2, -, -, -, -, -, -, rfl, k2⟩ := deposit_ok (refresh_sorted hp hn) h2
  rw [e1] at e2; cases e2
  obtain ⟨i, u, rfl⟩ := refresh_rest hp.history hm hn hs r1 r2
  obtain ⟨g1, g2, g3⟩ := add_rest (p := { p with
          totalShare := p.totalShare + a * l.multiplier,
          diffs := addAt caps.pool p.diffs x (a * l.multiplier - a) }) hp.history hd he ho k1 k2
  refine ⟨g1, ⟨i, u, rfl⟩, ?_, g2, g3⟩
  rintro rfl
  rw [r1] at r2
  have := Except.ok.inj r2
  rw [← this]

theorem withdraw_rest {now a : Nat} {p p1 p2 : Pool} {m n m' n' : Mining}
    {d e d' e' : Option Mining} (hp : PoolOk now p) (hm : MiningOk m) (hn : MiningOk n)
    (hd : ∀ x, d = some x → MiningOk x) (he : ∀ x, e = some x → MiningOk x) (hs : StakeLike now m n) (ho : OptStake now d e)
    (h1 : p.withdraw now m a d = .ok (p1, m', d')) (h2 : p.withdraw now n a e = .ok (p2, n', e')) :
    OpRest p1 p2 m n m' n' d e d' e' := by
  obtain ⟨m1, r1, -, -, rfl, k1⟩ := withdraw_ok hp.sorted h1
  obtain ⟨n1, r2, -, -, rfl, k2⟩ := withdraw_ok hp.sorted h2
  obtain ⟨i, u, rfl⟩ := refresh_rest hp.history hm hn hs r1 r2
  obtain ⟨g1, g2, g3⟩ := sub_rest (p := { p with
          totalShare := p.totalShare - a - dueBy p.diffs (bod now), diffs := after p.diffs (bod now) })
    hp.history hd he ho k1 k2
  refine ⟨g1, ⟨i, u, rfl⟩, ?_, g2, g3⟩
  rintro rfl
  rw [r1] at r2
  have := Except.ok.inj r2
  rw [← this]

theorem slash_rest {now x y : Nat} {z : Option Nat} {p p1 p2 : Pool} {m n m' n' : Mining} (hp : PoolOk now p)
    (hm : MiningOk m) (hn : MiningOk n) (hs : StakeLike now m n) (h1 : p.slash now m x y z = .ok (p1, m'))
    (h2 : p.slash now n x y z = .ok (p2, n')) : OpRest p1 p2 m n m' n' none none none none := by
  have he : m = n → m' = n' := by rintro rfl; rw [h1] at h2; cases h2; rfl
  obtain ⟨m1, r1, -, -, w1⟩ := slash_ok hp.sorted (refresh_sorted hp hm) h1
  obtain ⟨n1, r2, -, -, w2⟩ := slash_ok hp.sorted (refresh_sorted hp hn) h2
  obtain ⟨i, u, rfl⟩ := refresh_rest hp.history hm hn hs r1 r2
  rcases w1 with ⟨e1, rfl, rfl⟩ | ⟨ts, om, op, rfl, -, g1, g2, -, -, rfl, rfl⟩
  · rcases w2 with ⟨-, rfl, rfl⟩ | ⟨ts, om, op, e2, -⟩
    · exact ⟨rfl, ⟨i, u, rfl⟩, he, trivial, fun _ => rfl⟩
    · rw [e1] at e2; cases e2
  · rcases w2 with ⟨e2, -⟩ | ⟨ts, om, op, e2, -, g3, g4, -, -, rfl, rfl⟩
    · cases e2
    · cases e2
      simp only at g1
      rw [g1] at g3; cases g3
      rw [g2] at g4; cases g4
      exact ⟨rfl, ⟨i, u, rfl⟩, he, trivial, fun _ => rfl⟩

theorem optRest_ok {d d' : Option Mining} (h : SameDelegate d d') : ∀ x, d' = some x → MiningOk x := by
  rintro x rfl
  cases d with
  | none => exact h.elim
  | some _ => exact h.2

theorem extend_rest {caps : Caps} {now ts b a : Nat} {ol nl : LockupPeriod} {p p1 p2 : Pool} {m n m' n' : Mining}
    {d e d' e' : Option Mining} (hp : PoolOk now p) (hm : MiningOk m) (hn : MiningOk n)
    (hd : ∀ x, d = some x → MiningOk x) (he : ∀ x, e = some x → MiningOk x) (hs : StakeLike now m n) (ho : OptStake now d e)
    (h1 : p.extend caps now m ol nl ts b a d = .ok (p1, m', d'))
    (h2 : p.extend caps now n ol nl ts b a e = .ok (p2, n', e')) : OpRest p1 p2 m n m' n' d e d' e' := by
  obtain ⟨m1, oe, q1, m2, p3, d3, r1, o1, c1, -, w1, x1⟩ := extend_ok (refresh_sorted hp hm) h1
  obtain ⟨n1, oe', q2, n2, q3, e3, r2, o2, c2, -, w2, x2⟩ := extend_ok (refresh_sorted hp hn) h2
  have on1 : MiningOk n1 := (refresh_same hp.history hn r2).2.1
  have hmn : m = n → m1 = n1 := by rintro rfl; rw [r1] at r2; cases r2; rfl
  obtain ⟨i, u, rfl⟩ := refresh_rest hp.history hm hn hs r1 r2
  have hoe : oe = oe' := by
    rcases o1 with ⟨z1, rfl⟩ | ⟨z1, z2⟩
    · rcases o2 with ⟨-, rfl⟩ | ⟨z3, -⟩
      · rfl
      · exact absurd z1 z3
    · rcases o2 with ⟨z3, -⟩ | ⟨-, z3⟩
      · exact absurd z3 z1
      · rw [z2] at z3; cases z3; rfl
  subst hoe
  have hmid : m2 = { n2 with index := i, unclaimed := u } ∧ q1 = q2 ∧ MiningOk n2 ∧ (m = n → m2 = n2) ∧
      PoolOk now q1 ∧ q1.cumulative = p.cumulative := by
    rcases c1 with ⟨y1, -, -, ⟨old, g1, -, rfl⟩, -, -, rfl⟩ | ⟨y1, -, -, rfl, rfl⟩
    · rcases c2 with ⟨-, -, -, ⟨old', g2, -, rfl⟩, -, -, rfl⟩ | ⟨y2, -⟩
      · simp only at g1
        rw [g1] at g2; cases g2
        refine ⟨rfl, rfl, ⟨SMap.put_sorted on1.sorted _ _, put_aligned on1.aligned g1⟩, fun h => ?_, (Quiet.mk'' hp).ok, rfl⟩
        rw [← hmn h]
      · exact absurd y1 y2
    · rcases c2 with ⟨y2, -⟩ | ⟨-, -, -, rfl, rfl⟩
      · exact absurd y2 y1
      · refine ⟨rfl, rfl, ⟨on1.1, on1.2⟩, fun h => ?_, (Quiet.mk'' hp).ok, rfl⟩
        rw [← hmn h]
  obtain ⟨rfl, rfl, ok2, heq, hq, hcum⟩ := hmid
  obtain ⟨a1, a2⟩ := withSub_same hq hd w1
  obtain ⟨-, b2⟩ := withSub_same hq he w2
  obtain ⟨rfl, g2, g3⟩ := sub_rest hq.history hd he ho w1 w2
  obtain ⟨k1, k2, k3, k4, k5⟩ := deposit_rest a1.ok (m := { n2 with index := i, unclaimed := u }) ⟨ok2.1, ok2.2⟩ ok2
    (optRest_ok a2) (optRest_ok b2) ⟨rfl, rfl, rfl⟩ (g2.same now) x1 x2
  exact ⟨k1, k2, fun h => k3 (heq h), k4, fun h => k5 (g3 h)⟩

theorem StakeOp.rest {caps : Caps} {now : Nat} {i : Ix} {p p1 p2 : Pool} {m n m' n' : Mining}
    {d e d' e' : Option Mining} (hp : PoolOk now p) (hm : MiningOk m) (hn : MiningOk n)
    (hd : ∀ x, d = some x → MiningOk x) (he : ∀ x, e = some x → MiningOk x) (hs : StakeLike now m n) (ho : OptStake now d e)
    (h1 : StakeOp caps now p m d p1 m' d' i) (h2 : StakeOp caps now p n e p2 n' e' i) : OpRest p1 p2 m n m' n' d e d' e' := by
  cases i with
  | depositMining a l o dl => exact deposit_rest hp hm hn hd he hs ho h1 h2
  | withdrawMining a o dl => exact withdraw_rest hp hm hn hd he hs ho h1 h2
  | extendStake ol nl ts b a o dl => exact extend_rest hp hm hn hd he hs ho h1 h2
  | slash o n mu ex =>
    obtain ⟨h1, rfl, rfl⟩ := h1
    obtain ⟨h2, rfl, rfl⟩ := h2
    exact slash_rest hp hm hn hs h1 h2
  | _ => exact h1.elim

end Verif
