import Verif.Lemmas.ClaimsRun
import Verif.Spec.Trade
/-!
Delegated stake counts as much as own stake.
-/

namespace Verif

open Spec

variable {env : Env}

theorem Spec.Instead.mk' {x s o : Nat} (c : Mining) :
    Instead x { c with share := s, stakeFromOthers := o + x } { c with share := s + x, stakeFromOthers := o } :=
  ⟨rfl, rfl, rfl⟩

theorem Spec.Instead.elim {x : Nat} {m n : Mining} (h : Instead x m n) : ∃ (c : Mining) (s o : Nat),
    m = { c with share := s, stakeFromOthers := o + x } ∧ n = { c with share := s + x, stakeFromOthers := o } := by
  refine ⟨n, m.share, n.stakeFromOthers, ?_, ?_⟩
  · rw [← h.others]; exact h.rest
  · rw [← h.own]

theorem refresh_instead {x now : Nat} {cum : SMap} {m n m1 n1 : Mining} (h : Instead x m n)
    (h1 : m.refreshRewards now cum = .ok m1) (h2 : n.refreshRewards now cum = .ok n1) : Instead x m1 n1 := by
  obtain ⟨c, s, o, rfl, rfl⟩ := h.elim
  unfold Mining.refreshRewards Mining.consumeOldModifiers at h1 h2
  simp only [res_bind_ok, Prod.exists, safeAdd64_ok, safeSub_ok, res_pure_ok, Prod.mk.injEq] at h1 h2
  obtain ⟨_, ⟨-, rfl⟩, _, _, ⟨st, e1, rfl, rfl⟩, u, i, e2, _, ⟨l1, rfl⟩, rfl⟩ := h1
  obtain ⟨_, ⟨-, rfl⟩, _, _, ⟨st', e1', rfl, rfl⟩, u', i', e2', _, ⟨l2, rfl⟩, rfl⟩ := h2
  have hs : s + x + o = s + (o + x) := by omega
  rw [hs, e1] at e1'
  obtain rfl := Except.ok.inj e1'
  simp only at e2 e2'
  rw [e2] at e2'
  obtain ⟨rfl, rfl⟩ := Prod.mk.inj (Except.ok.inj e2')
  have hl : st.totalShare - o = st.totalShare - (o + x) + x := by
    have : o + x ≤ st.totalShare := l1
    omega
  rw [hl]
  exact Instead.mk' { c with unclaimed := u, index := i, diffs := st.processed.foldl SMap.erase c.diffs }

/-- The same for optional minings. -/
def OptInstead (x : Nat) : Option Mining → Option Mining → Prop
  | some m, some n => Instead x m n
  | _, _ => False

/-- What is shown of every operation. -/
structure OpInstead (x : Nat) (p1 p2 : Pool) (m n m' n' : Mining) (d e d' e' : Option Mining) : Prop where
  pool : p1 = p2
  same : m = n → m' = n'
  moved : Instead x m n → Instead x m' n'
  sameDelegate : d = e → d' = e'
  movedDelegate : OptInstead x d e → OptInstead x d' e'

theorem add_instead {x now a : Nat} {p p1 p2 : Pool} {d e d1 e1 : Option Mining} (hde : d = e ∨ OptInstead x d e)
    (h1 : p.withDelegate d (Pool.delegateAdd now a) = .ok (p1, d1))
    (h2 : p.withDelegate e (Pool.delegateAdd now a) = .ok (p2, e1)) :
    p1 = p2 ∧ (d = e → d1 = e1) ∧ (OptInstead x d e → OptInstead x d1 e1) := by
  rcases hde with rfl | hde
  · rw [h1] at h2
    obtain ⟨rfl, rfl⟩ := Prod.mk.inj (Except.ok.inj h2)
    refine ⟨rfl, fun _ => rfl, fun hh => ?_⟩
    cases d with
    | none => exact hh.elim
    | some y =>
      have : y = { y with share := y.share, stakeFromOthers := y.stakeFromOthers } := rfl
      have h0 : x = 0 := by have := Instead.own hh; omega
      subst h0
      rw [withDelegate_some] at h1
      obtain ⟨y', -, rfl⟩ := h1
      exact ⟨rfl, rfl, rfl⟩
  · cases d with
    | none => exact hde.elim
    | some m =>
      cases e with
      | none => exact hde.elim
      | some n =>
        have hmn : Instead x m n := hde
        rw [withDelegate_some] at h1 h2
        obtain ⟨m', h1, rfl⟩ := h1
        obtain ⟨n', h2, rfl⟩ := h2
        rw [delegateAdd_ok] at h1 h2
        obtain ⟨-, -, g1, rfl⟩ := h1
        obtain ⟨-, -, g2, rfl⟩ := h2
        refine ⟨rfl, ?_, fun _ => ?_⟩
        · intro hh
          obtain rfl := Option.some.inj hh
          rw [g1] at g2; rw [Except.ok.inj g2]
        · refine refresh_instead (m := { m with stakeFromOthers := m.stakeFromOthers + a })
            (n := { n with stakeFromOthers := n.stakeFromOthers + a }) ?_ g1 g2
          obtain ⟨c, s, o, rfl, rfl⟩ := hmn.elim
          refine ⟨rfl, ?_, rfl⟩
          show o + x + a = o + a + x
          omega

theorem sub_instead {x now a : Nat} {p p1 p2 : Pool} {d e d1 e1 : Option Mining} (hde : d = e ∨ OptInstead x d e)
    (h1 : p.withDelegate d (Pool.delegateSub now a) = .ok (p1, d1))
    (h2 : p.withDelegate e (Pool.delegateSub now a) = .ok (p2, e1)) :
    p1 = p2 ∧ (d = e → d1 = e1) ∧ (OptInstead x d e → OptInstead x d1 e1) := by
  rcases hde with rfl | hde
  · rw [h1] at h2
    obtain ⟨rfl, rfl⟩ := Prod.mk.inj (Except.ok.inj h2)
    refine ⟨rfl, fun _ => rfl, fun hh => ?_⟩
    cases d with
    | none => exact hh.elim
    | some y =>
      have h0 : x = 0 := by have := Instead.own hh; omega
      subst h0
      rw [withDelegate_some] at h1
      obtain ⟨y', -, rfl⟩ := h1
      exact ⟨rfl, rfl, rfl⟩
  · cases d with
    | none => exact hde.elim
    | some m =>
      cases e with
      | none => exact hde.elim
      | some n =>
        have hmn : Instead x m n := hde
        rw [withDelegate_some] at h1 h2
        obtain ⟨m', h1, rfl⟩ := h1
        obtain ⟨n', h2, rfl⟩ := h2
        rw [delegateSub_ok] at h1 h2
        obtain ⟨-, -, g1, rfl⟩ := h1
        obtain ⟨b1, -, g2, rfl⟩ := h2
        refine ⟨rfl, ?_, fun _ => ?_⟩
        · intro hh
          obtain rfl := Option.some.inj hh
          rw [g1] at g2; rw [Except.ok.inj g2]
        · refine refresh_instead (m := { m with stakeFromOthers := m.stakeFromOthers - a })
            (n := { n with stakeFromOthers := n.stakeFromOthers - a }) ?_ g1 g2
          obtain ⟨c, s, o, rfl, rfl⟩ := hmn.elim
          refine ⟨rfl, ?_, rfl⟩
          show o + x - a = o - a + x
          have : a ≤ o := b1
          omega

theorem Spec.Instead.deposit {x : Nat} {m n : Mining} (h : Instead x m n) (a : Nat) (l : SMap) :
    Instead x { m with share := m.share + a, diffs := l } { n with share := n.share + a, diffs := l } := by
  obtain ⟨c, s, o, rfl, rfl⟩ := h.elim
  refine ⟨?_, rfl, rfl⟩
  show s + x + a = s + a + x
  omega

theorem Spec.Instead.take {x : Nat} {m n : Mining} (h : Instead x m n) {a : Nat} (ha : a ≤ m.share) (l : SMap) :
    Instead x { m with share := m.share - a, diffs := l } { n with share := n.share - a, diffs := l } := by
  obtain ⟨c, s, o, rfl, rfl⟩ := h.elim
  refine ⟨?_, rfl, rfl⟩
  show s + x - a = s - a + x
  have : a ≤ s := ha
  omega

theorem Spec.Instead.diffs {x : Nat} {m n : Mining} (h : Instead x m n) : m.diffs = n.diffs := by
  obtain ⟨c, s, o, rfl, rfl⟩ := h.elim; rfl

theorem deposit_instead {x : Nat} {caps : Caps} {now a : Nat} {l : LockupPeriod} {p p1 p2 : Pool} {m n m' n' : Mining}
    {d e d' e' : Option Mining} (hp : PoolOk now p) (hm : MiningOk m) (hn : MiningOk n) (hde : d = e ∨ OptInstead x d e)
    (h1 : p.deposit caps now m a l d = .ok (p1, m', d')) (h2 : p.deposit caps now n a l e = .ok (p2, n', e')) :
    OpInstead x p1 p2 m n m' n' d e d' e' := by
  obtain ⟨m1, t, r1, e1, -, -, -, -, -, -, rfl, k1⟩ := deposit_ok (refresh_sorted hp hm) h1
  obtain ⟨n1, y, r2, e2, -, -, -, -, -, -, rfl, k2⟩ := deposit_ok (refresh_sorted hp hn) h2
  rw [e1] at e2; cases e2
  obtain ⟨g1, g2, g3⟩ := add_instead (p := { p with
          totalShare := p.totalShare + a * l.multiplier,
          diffs := addAt caps.pool p.diffs t (a * l.multiplier - a) }) hde k1 k2
  refine ⟨g1, ?_, fun h => ?_, g2, g3⟩
  · rintro rfl
    rw [r1] at r2
    rw [Except.ok.inj r2]
  · have hr := refresh_instead h r1 r2
    rw [hr.diffs]
    exact hr.deposit _ _

theorem withdraw_instead {x now a : Nat} {p p1 p2 : Pool} {m n m' n' : Mining}
    {d e d' e' : Option Mining} (hp : PoolOk now p) (hde : d = e ∨ OptInstead x d e)
    (h1 : p.withdraw now m a d = .ok (p1, m', d')) (h2 : p.withdraw now n a e = .ok (p2, n', e')) :
    OpInstead x p1 p2 m n m' n' d e d' e' := by
  obtain ⟨m1, r1, b1, -, rfl, k1⟩ := withdraw_ok hp.sorted h1
  obtain ⟨n1, r2, -, -, rfl, k2⟩ := withdraw_ok hp.sorted h2
  obtain ⟨g1, g2, g3⟩ := sub_instead (p := { p with
          totalShare := p.totalShare - a - dueBy p.diffs (bod now), diffs := after p.diffs (bod now) }) hde k1 k2
  refine ⟨g1, ?_, fun h => ?_, g2, g3⟩
  · rintro rfl
    rw [r1] at r2
    rw [Except.ok.inj r2]
  · have hr := refresh_instead h r1 r2
    have := hr.take (a := a) (by omega) m1.diffs
    rw [show ({ n1 with share := n1.share - a } : Mining) = { n1 with share := n1.share - a, diffs := m1.diffs } by
      rw [hr.diffs]]
    exact this

theorem slash_instead {x now a b : Nat} {z : Option Nat} {p p1 p2 : Pool} {m n m' n' : Mining} (hp : PoolOk now p)
    (hm : MiningOk m) (hn : MiningOk n) (h1 : p.slash now m a b z = .ok (p1, m'))
    (h2 : p.slash now n a b z = .ok (p2, n')) (hmn : m = n ∨ Instead x m n) :
    OpInstead x p1 p2 m n m' n' none none none none := by
  have he : m = n → m' = n' := by rintro rfl; rw [h1] at h2; cases h2; rfl
  obtain ⟨m1, r1, b1, -, w1⟩ := slash_ok hp.sorted (refresh_sorted hp hm) h1
  obtain ⟨n1, r2, -, -, w2⟩ := slash_ok hp.sorted (refresh_sorted hp hn) h2
  have hdd : m1.diffs = n1.diffs := by
    rcases hmn with rfl | hmn
    · rw [r1] at r2; rw [Except.ok.inj r2]
    · exact (refresh_instead hmn r1 r2).diffs
  rcases w1 with ⟨e1, rfl, rfl⟩ | ⟨ts, om, op, rfl, -, g1, g2, -, -, rfl, rfl⟩
  · rcases w2 with ⟨-, rfl, rfl⟩ | ⟨ts, om, op, e2, -⟩
    · refine ⟨rfl, he, fun h => ?_, fun _ => rfl, fun h => h.elim⟩
      have := (refresh_instead h r1 r2).take b1 m1.diffs
      rw [show ({ n1 with share := n1.share - b } : Mining) = { n1 with share := n1.share - b, diffs := m1.diffs } by
        rw [hdd]]
      exact this
    · rw [e1] at e2; cases e2
  · rcases w2 with ⟨e2, -⟩ | ⟨ts, om, op, e2, -, g3, g4, -, -, rfl, rfl⟩
    · cases e2
    · cases e2
      rw [hdd] at g1 he ⊢
      rw [g1] at g3; cases g3
      rw [g2] at g4; cases g4
      exact ⟨rfl, he, fun h => (refresh_instead h r1 r2).take b1 _, fun _ => rfl, fun h => h.elim⟩

theorem optInstead_some {x : Nat} {d e : Option Mining} (h : d = e ∨ OptInstead x d e) : d.isSome = e.isSome := by
  rcases h with rfl | h
  · rfl
  · cases d <;> cases e <;> first | rfl | exact h.elim

theorem extend_instead {x : Nat} {caps : Caps} {now ts b a : Nat} {ol nl : LockupPeriod} {p p1 p2 : Pool} {m n m' n' : Mining}
    {d e d' e' : Option Mining} (hp : PoolOk now p) (hm : MiningOk m) (hn : MiningOk n)
    (hd : ∀ x, d = some x → MiningOk x) (hmn : m = n ∨ Instead x m n) (hde : d = e ∨ OptInstead x d e)
    (h1 : p.extend caps now m ol nl ts b a d = .ok (p1, m', d'))
    (h2 : p.extend caps now n ol nl ts b a e = .ok (p2, n', e')) : OpInstead x p1 p2 m n m' n' d e d' e' := by
  obtain ⟨m1, oe, q1, m2, p3, d3, r1, o1, c1, -, w1, x1⟩ := extend_ok (refresh_sorted hp hm) h1
  obtain ⟨n1, oe', q2, n2, q3, e3, r2, o2, c2, -, w2, x2⟩ := extend_ok (refresh_sorted hp hn) h2
  have om1 : MiningOk m1 := (refresh_same hp.history hm r1).2.1
  have on1 : MiningOk n1 := (refresh_same hp.history hn r2).2.1
  have heq : m = n → m1 = n1 := by rintro rfl; rw [r1] at r2; cases r2; rfl
  have hin : Instead x m n → Instead x m1 n1 := fun h => refresh_instead h r1 r2
  have hdd : m1.diffs = n1.diffs := by
    rcases hmn with h | h
    · rw [heq h]
    · exact (hin h).diffs
  have hoe : oe = oe' := by
    rcases o1 with ⟨z1, rfl⟩ | ⟨z1, z2⟩
    · rcases o2 with ⟨-, rfl⟩ | ⟨z3, -⟩
      · rfl
      · exact absurd z1 z3
    · rcases o2 with ⟨z3, -⟩ | ⟨-, z3⟩
      · exact absurd z3 z1
      · rw [z2] at z3; cases z3; rfl
  subst hoe
  have hmid : q1 = q2 ∧ MiningOk m2 ∧ MiningOk n2 ∧ (m = n → m2 = n2) ∧ (Instead x m n → Instead x m2 n2) ∧ PoolOk now q1 := by
    rcases c1 with ⟨y1, -, -, ⟨old, g1, -, rfl⟩, b1, -, rfl⟩ | ⟨y1, b1, -, rfl, rfl⟩
    · rcases c2 with ⟨-, -, -, ⟨old', g2, -, rfl⟩, -, -, rfl⟩ | ⟨y2, -⟩
      · have g2' := g2
        rw [← hdd, g1] at g2'; cases g2'
        refine ⟨rfl, ⟨SMap.put_sorted om1.sorted _ _, put_aligned om1.aligned g1⟩,
          ⟨SMap.put_sorted on1.sorted _ _, put_aligned on1.aligned g2⟩, fun h => ?_, fun h => ?_, (Quiet.mk'' hp).ok⟩
        · rw [← heq h]
        · rw [← hdd]
          exact (hin h).take b1 _
      · exact absurd y1 y2
    · rcases c2 with ⟨y2, -⟩ | ⟨-, -, -, rfl, rfl⟩
      · exact absurd y2 y1
      · refine ⟨rfl, ⟨om1.1, om1.2⟩, ⟨on1.1, on1.2⟩, fun h => ?_, fun h => ?_, (Quiet.mk'' hp).ok⟩
        · rw [← heq h]
        · have := (hin h).take b1 m1.diffs
          rw [show ({ n1 with share := n1.share - b } : Mining) = { n1 with share := n1.share - b, diffs := m1.diffs } by
            rw [hdd]]
          exact this
  obtain ⟨rfl, ok1, ok2, heq2, hin2, hq⟩ := hmid
  obtain ⟨a1, a2⟩ := withSub_same hq hd w1
  obtain ⟨rfl, g2, g3⟩ := sub_instead hde w1 w2
  obtain ⟨k1, k2, k3, k4, k5⟩ := deposit_instead a1.ok ok1 ok2 (hde.imp g2 g3) x1 x2
  exact ⟨k1, fun h => k2 (heq2 h), fun h => k3 (hin2 h), fun h => k4 (g2 h), fun h => k5 (g3 h)⟩

theorem StakeOp.instead {x : Nat} {caps : Caps} {now : Nat} {i : Ix} {p p1 p2 : Pool} {m n m' n' : Mining}
    {d e d' e' : Option Mining} (hp : PoolOk now p) (hm : MiningOk m) (hn : MiningOk n)
    (hd : ∀ x, d = some x → MiningOk x) (hmn : m = n ∨ Instead x m n) (hde : d = e ∨ OptInstead x d e)
    (h1 : StakeOp caps now p m d p1 m' d' i) (h2 : StakeOp caps now p n e p2 n' e' i) :
    OpInstead x p1 p2 m n m' n' d e d' e' := by
  cases i with
  | depositMining a l o dl => exact deposit_instead hp hm hn hde h1 h2
  | withdrawMining a o dl => exact withdraw_instead hp hde h1 h2
  | extendStake ol nl ts b a o dl => exact extend_instead hp hm hn hd hmn hde h1 h2
  | slash o n mu ex =>
    obtain ⟨h1, rfl, rfl⟩ := h1
    obtain ⟨h2, rfl, rfl⟩ := h2
    exact slash_instead hp hm hn h1 h2 hmn
  | _ => exact h1.elim

end Verif
