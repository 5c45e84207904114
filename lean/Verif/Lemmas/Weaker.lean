import Verif.Lemmas.Aside
import Verif.Lemmas.Early
/-!
A stake that counts for less on every day keeps counting for less.
-/

namespace Verif

open Spec

variable {env : Env}

/-- From today on the first of two minings weighs at most as much as the second, with the same dates ahead. -/
structure Weaker (now : Nat) (m n : Mining) : Prop where
  kin : Kin m n
  less : ∀ x, midnight now ≤ x → m.share + dueBy n.diffs x ≤ n.share + dueBy m.diffs x
  dates : (after m.diffs (midnight now)).map (·.1) = (after n.diffs (midnight now)).map (·.1)

/-- The same when both have been brought up to date. -/
structure Lower (now : Nat) (m n : Mining) : Prop where
  kin : Kin m n
  less : ∀ x, midnight now ≤ x → m.share + dueBy n.diffs x ≤ n.share + dueBy m.diffs x
  dates : m.diffs.map (·.1) = n.diffs.map (·.1)

theorem after_keys (D : SMap) (b : Nat) : (after D b).map (·.1) = (D.map (·.1)).filter fun x => decide (b < x) := by
  unfold after
  rw [List.filter_map]
  rfl

theorem Lower.weaker {now : Nat} {m n : Mining} (h : Lower now m n) : Weaker now m n :=
  ⟨h.kin, h.less, by rw [after_keys, after_keys, h.dates]⟩

theorem Weaker.refl (now : Nat) (m : Mining) : Weaker now m m := ⟨.refl m, fun _ _ => Nat.le_refl _, rfl⟩

theorem Weaker.later {now t : Nat} {m n : Mining} (h : Weaker now m n) (ht : midnight now ≤ midnight t) : Weaker t m n := by
  refine ⟨h.kin, fun x hx => h.less x (by omega), ?_⟩
  rw [← after_after m.diffs ht, ← after_after n.diffs ht, after_keys (after m.diffs _), after_keys (after n.diffs _), h.dates]

theorem Weaker.earning {now x : Nat} {m n : Mining} (h : Weaker now m n) (hx : midnight now ≤ x) :
    earningOn m x ≤ earningOn n x := by
  have h1 := h.less x hx
  have h2 := h.kin.others
  unfold earningOn
  omega

theorem refresh_lower {cum : SMap} (hc : History cum) {now : Nat} {m n m1 n1 : Mining} (hm : MiningOk m) (hn : MiningOk n)
    (hs : Weaker now m n) (h1 : m.refreshRewards now cum = .ok m1) (h2 : n.refreshRewards now cum = .ok n1) :
    Lower now m1 n1 := by
  obtain ⟨c, rfl, hb, -⟩ := refresh_ok hc hm.sorted h1
  obtain ⟨c', rfl, hb', -⟩ := refresh_ok hc hn.sorted h2
  rw [bod_eq_midnight] at *
  refine ⟨hs.kin, fun x hx => ?_, hs.dates⟩
  have h3 := dueBy_after m.diffs hx
  have h4 := dueBy_after n.diffs hx
  have h5 := hs.less x hx
  show m.share - _ + dueBy (after n.diffs _) x ≤ n.share - _ + dueBy (after m.diffs _) x
  omega

/-- Bringing one of them up to date. -/
theorem refresh_weaker {cum : SMap} (hc : History cum) {now : Nat} {m m1 : Mining} (hm : MiningOk m)
    (h1 : m.refreshRewards now cum = .ok m1) : Weaker now m1 m ∧ Weaker now m m1 := by
  obtain ⟨c, rfl, hb, -⟩ := refresh_ok hc hm.sorted h1
  rw [bod_eq_midnight] at *
  have key : ∀ x, midnight now ≤ x → m.share - dueBy m.diffs (midnight now) + dueBy m.diffs x =
      m.share + dueBy (after m.diffs (midnight now)) x := by
    intro x hx
    have := dueBy_after m.diffs hx
    omega
  refine ⟨⟨Eq.refl _, fun x hx => Nat.le_of_eq (key x hx), ?_⟩, ⟨Eq.refl _, fun x hx => Nat.le_of_eq (key x hx).symm, ?_⟩⟩
  · rw [after_after _ (Nat.le_refl _)]
  · rw [after_after _ (Nat.le_refl _)]

theorem Weaker.trans {now : Nat} {m n o : Mining} (h : Weaker now m n) (h' : Weaker now n o) : Weaker now m o :=
  ⟨h.kin.trans h'.kin, fun x hx => by have := h.less x hx; have := h'.less x hx; omega, h.dates.trans h'.dates⟩

theorem Weaker.set {now : Nat} {m n : Mining} (h : Weaker now m n) (a : Nat) :
    Weaker now { m with stakeFromOthers := a } { n with stakeFromOthers := a } := ⟨h.kin.set a, h.less, h.dates⟩

theorem decrease_weaker {now : Nat} {m m' : Mining} {n : Nat} (h : m.decreaseRewards n = .ok m') : Weaker now m' m := by
  have hk := (decrease_earning h).2.2.2.2.2
  refine ⟨decrease_kin h, fun x _ => ?_, by rw [after_keys, after_keys, hk]⟩
  rw [decreaseRewards_ok] at h
  rcases h with ⟨-, rfl⟩ | ⟨-, hn, rfl⟩
  · exact Nat.le_refl _
  · have h1 := decreaseLoop_dueBy n m.diffs.reverse x
    rw [dueBy_reverse] at h1
    simp only [dueBy_reverse]
    omega

theorem put_keys {D E : SMap} (h : D.map (·.1) = E.map (·.1)) (k v v' : Nat) :
    (SMap.put D k v).map (·.1) = (SMap.put E k v').map (·.1) := by
  induction D generalizing E with
  | nil => cases E with
    | nil => rfl
    | cons => cases h
  | cons a D ih =>
    cases E with
    | nil => cases h
    | cons b E =>
      obtain ⟨x, y⟩ := a
      obtain ⟨x', y'⟩ := b
      simp only [List.map_cons, List.cons.injEq] at h
      obtain ⟨rfl, h⟩ := h
      unfold SMap.put
      split
      · simp [h]
      · split
        · simp [h]
        · simp [ih h]

theorem contains_keys {D E : SMap} (h : D.map (·.1) = E.map (·.1)) (k : Nat) : D.contains k = E.contains k := by
  unfold SMap.contains
  induction D generalizing E with
  | nil => cases E with
    | nil => rfl
    | cons => cases h
  | cons a D ih =>
    cases E with
    | nil => cases h
    | cons b E =>
      obtain ⟨x, y⟩ := a
      obtain ⟨x', y'⟩ := b
      simp only [List.map_cons, List.cons.injEq] at h
      obtain ⟨rfl, h⟩ := h
      unfold SMap.get
      split
      · rfl
      · exact ih h

theorem length_keys {D E : SMap} (h : D.map (·.1) = E.map (·.1)) : D.length = E.length := by
  have := congrArg List.length h
  simpa using this

theorem addAt_lower {D E : SMap} (hD : Sorted D) (hE : Sorted E) (h : D.map (·.1) = E.map (·.1)) (cap k v : Nat) :
    (addAt cap D k v).map (·.1) = (addAt cap E k v).map (·.1) ∧
      ∀ x, dueBy (addAt cap D k v) x + dueBy E x = dueBy D x + dueBy (addAt cap E k v) x := by
  by_cases hr : Room cap D k
  · have hr' : Room cap E k := by unfold Room at *; rw [← contains_keys h, ← length_keys h]; exact hr
    refine ⟨?_, fun x => by rw [dueBy_addAt hD hr, dueBy_addAt hE hr']; omega⟩
    unfold Room at hr hr'
    unfold addAt SMap.insert
    rw [if_pos hr, if_pos hr']
    exact put_keys h _ _ _
  · have hr' : ¬ Room cap E k := by unfold Room at *; rw [← contains_keys h, ← length_keys h]; exact hr
    unfold Room at hr hr'
    unfold addAt SMap.insert
    rw [if_neg hr, if_neg hr']
    exact ⟨h, fun x => rfl⟩

theorem put_lower {D E : SMap} (hD : Sorted D) (hE : Sorted E) (h : D.map (·.1) = E.map (·.1)) {k o o' v : Nat}
    (g : D.get k = some o) (g' : E.get k = some o') (hv : v ≤ o) (hv' : v ≤ o') :
    (SMap.put D k (o - v)).map (·.1) = (SMap.put E k (o' - v)).map (·.1) ∧
      ∀ x, dueBy (SMap.put D k (o - v)) x + dueBy E x = dueBy D x + dueBy (SMap.put E k (o' - v)) x := by
  refine ⟨put_keys h _ _ _, fun x => ?_⟩
  have h1 := SMap.dueBy_put hD k (o - v) x
  have h2 := SMap.dueBy_put hE k (o' - v) x
  rw [g] at h1; rw [g'] at h2
  simp only [Option.getD_some] at h1 h2
  split at h1
  · rw [if_pos (by assumption), if_pos (by assumption)] at h2; omega
  · rw [if_neg (by assumption), if_neg (by assumption)] at h2; omega

section
variable {now : Nat} {p p1 p2 : Pool} {m n m' n' : Mining} {d e d' e' : Option Mining}

theorem deposit_weaker {caps : Caps} {a : Nat} {l : LockupPeriod} (hp : PoolOk now p) (hm : MiningOk m) (hn : MiningOk n)
    (hs : Weaker now m n) (h1 : p.deposit caps now m a l d = .ok (p1, m', d'))
    (h2 : p.deposit caps now n a l e = .ok (p2, n', e')) : Weaker now m' n' := by
  have s1 := refresh_sorted hp hm
  have s2 := refresh_sorted hp hn
  obtain ⟨m1, x, r1, e1, -, -, -, -, -, -, rfl, -⟩ := deposit_ok s1 h1
  obtain ⟨n1, y, r2, e2, -, -, -, -, -, -, rfl, -⟩ := deposit_ok s2 h2
  rw [e1] at e2; cases e2
  have hl := refresh_lower hp.history hm hn hs r1 r2
  obtain ⟨g1, g2⟩ := addAt_lower (s1 _ r1) (s2 _ r2) hl.dates caps.mining x (a * l.multiplier - a)
  refine Lower.weaker ⟨hl.kin, fun z hz => ?_, g1⟩
  have := g2 z
  have := hl.less z hz
  simp only
  omega

theorem withdraw_weaker {a : Nat} (hp : PoolOk now p) (hm : MiningOk m) (hn : MiningOk n)
    (hs : Weaker now m n) (h1 : p.withdraw now m a d = .ok (p1, m', d')) (h2 : p.withdraw now n a e = .ok (p2, n', e')) :
    Weaker now m' n' := by
  obtain ⟨m1, r1, b1, -, rfl, k1⟩ := withdraw_ok hp.sorted h1
  obtain ⟨n1, r2, b2, -, rfl, k2⟩ := withdraw_ok hp.sorted h2
  have hl := refresh_lower hp.history hm hn hs r1 r2
  refine Lower.weaker ⟨hl.kin, fun z hz => ?_, hl.dates⟩
  have := hl.less z hz
  simp only
  omega

theorem slash_weaker {x y : Nat} {z : Option Nat} (hp : PoolOk now p) (hm : MiningOk m) (hn : MiningOk n)
    (hs : Weaker now m n) (h1 : p.slash now m x y z = .ok (p1, m')) (h2 : p.slash now n x y z = .ok (p2, n')) :
    Weaker now m' n' := by
  have s1 := refresh_sorted hp hm
  have s2 := refresh_sorted hp hn
  obtain ⟨m1, r1, b1, -, w1⟩ := slash_ok hp.sorted s1 h1
  obtain ⟨n1, r2, b2, -, w2⟩ := slash_ok hp.sorted s2 h2
  have hl := refresh_lower hp.history hm hn hs r1 r2
  rcases w1 with ⟨e1, rfl, rfl⟩ | ⟨ts, om, op, rfl, -, g1, g2, t1, -, rfl, rfl⟩
  · rcases w2 with ⟨-, rfl, rfl⟩ | ⟨ts, om, op, e2, -⟩
    · refine Lower.weaker ⟨hl.kin, fun z hz => ?_, hl.dates⟩
      have := hl.less z hz
      simp only
      omega
    · rw [e1] at e2; cases e2
  · rcases w2 with ⟨e2, -⟩ | ⟨ts, om', op', e2, -, g3, g4, t2, -, rfl, rfl⟩
    · cases e2
    · cases e2
      obtain ⟨k1, k2⟩ := put_lower (s1 _ r1) (s2 _ r2) hl.dates g1 g3 t1 t2
      refine Lower.weaker ⟨hl.kin, fun z hz => ?_, k1⟩
      have := k2 z
      have := hl.less z hz
      simp only
      omega

theorem sub_pool {a : Nat} {q : Pool} (ho : d.isSome = e.isSome)
    (h1 : p.withDelegate d (Pool.delegateSub now a) = .ok (p1, d'))
    (h2 : p.withDelegate e (Pool.delegateSub now a) = .ok (q, e')) : p1 = q := by
  cases d with
  | none =>
    cases e with
    | none => rw [withDelegate_none] at h1 h2; exact h1.1.trans h2.1.symm
    | some y => cases ho
  | some x =>
    cases e with
    | none => cases ho
    | some y =>
      rw [withDelegate_some] at h1 h2
      obtain ⟨x1, h1, -⟩ := h1
      obtain ⟨y1, h2, -⟩ := h2
      rw [delegateSub_ok] at h1 h2
      rw [h1.2.2.2, h2.2.2.2]

theorem extend_weaker {caps : Caps} {ts b a : Nat} {ol nl : LockupPeriod} (hp : PoolOk now p) (hm : MiningOk m)
    (hn : MiningOk n) (hd : ∀ x, d = some x → MiningOk x) (ho : d.isSome = e.isSome)
    (hs : Weaker now m n) (h1 : p.extend caps now m ol nl ts b a d = .ok (p1, m', d'))
    (h2 : p.extend caps now n ol nl ts b a e = .ok (p2, n', e')) : Weaker now m' n' := by
  have s1 := refresh_sorted hp hm
  have s2 := refresh_sorted hp hn
  obtain ⟨m1, oe, q1, m2, p3, d3, r1, o1, c1, -, w1, x1⟩ := extend_ok s1 h1
  obtain ⟨n1, oe', q2, n2, q3, e3, r2, o2, c2, -, w2, x2⟩ := extend_ok s2 h2
  have om1 : MiningOk m1 := (refresh_same hp.history hm r1).2.1
  have on1 : MiningOk n1 := (refresh_same hp.history hn r2).2.1
  have hl := refresh_lower hp.history hm hn hs r1 r2
  have hoe : oe = oe' := by
    rcases o1 with ⟨z1, rfl⟩ | ⟨z1, z2⟩
    · rcases o2 with ⟨-, rfl⟩ | ⟨z3, -⟩
      · rfl
      · exact absurd z1 z3
    · rcases o2 with ⟨z3, -⟩ | ⟨-, z3⟩
      · exact absurd z3 z1
      · rw [z2] at z3; cases z3; rfl
  subst hoe
  have hmid : Lower now m2 n2 ∧ q1 = q2 ∧ MiningOk m2 ∧ MiningOk n2 ∧ PoolOk now q1 := by
    rcases c1 with ⟨y1, -, -, ⟨old, g1, t1, rfl⟩, b1, -, rfl⟩ | ⟨y1, b1, -, rfl, rfl⟩
    · rcases c2 with ⟨-, -, -, ⟨old', g2, t2, rfl⟩, b2, -, rfl⟩ | ⟨y2, -⟩
      · obtain ⟨k1, k2⟩ := put_lower om1.sorted on1.sorted hl.dates g1 g2 t1 t2
        refine ⟨⟨hl.kin, fun z hz => ?_, k1⟩, rfl, ⟨SMap.put_sorted om1.sorted _ _, put_aligned om1.aligned g1⟩,
          ⟨SMap.put_sorted on1.sorted _ _, put_aligned on1.aligned g2⟩, (Quiet.mk'' hp).ok⟩
        have := k2 z
        have := hl.less z hz
        simp only
        omega
      · exact absurd y1 y2
    · rcases c2 with ⟨y2, -⟩ | ⟨-, b2, -, rfl, rfl⟩
      · exact absurd y2 y1
      · refine ⟨⟨hl.kin, fun z hz => ?_, hl.dates⟩, rfl, ⟨om1.1, om1.2⟩, ⟨on1.1, on1.2⟩, (Quiet.mk'' hp).ok⟩
        have := hl.less z hz
        simp only
        omega
  obtain ⟨hk, rfl, ok1, ok2, hq⟩ := hmid
  obtain ⟨a1, a2⟩ := withSub_same hq hd w1
  obtain rfl := sub_pool ho w1 w2
  exact deposit_weaker a1.ok ok1 ok2 hk.weaker x1 x2

theorem StakeOp.weaker {caps : Caps} {i : Ix} (hp : PoolOk now p) (hm : MiningOk m) (hn : MiningOk n)
    (hd : ∀ x, d = some x → MiningOk x) (ho : d.isSome = e.isSome) (hs : Weaker now m n)
    (h1 : StakeOp caps now p m d p1 m' d' i) (h2 : StakeOp caps now p n e p2 n' e' i) : Weaker now m' n' := by
  cases i with
  | depositMining a l o dl => exact deposit_weaker hp hm hn hs h1 h2
  | withdrawMining a o dl => exact withdraw_weaker hp hm hn hs h1 h2
  | extendStake ol nl ts b a o dl => exact extend_weaker hp hm hn hd ho hs h1 h2
  | slash o n mu ex =>
    obtain ⟨h1, -⟩ := h1
    obtain ⟨h2, -⟩ := h2
    exact slash_weaker hp hm hn hs h1 h2
  | _ => exact h1.elim

end

/-- A mining with the same stake of its own from today on. -/
structure SameOwn (now : Nat) (m n : Mining) : Prop where
  equal : ∀ x, midnight now ≤ x → m.share + dueBy n.diffs x = n.share + dueBy m.diffs x
  dates : (after m.diffs (midnight now)).map (·.1) = (after n.diffs (midnight now)).map (·.1)

theorem SameOwn.trans {now : Nat} {m n o : Mining} (h : SameOwn now m n) (h' : SameOwn now n o) : SameOwn now m o :=
  ⟨fun x hx => by have := h.equal x hx; have := h'.equal x hx; omega, h.dates.trans h'.dates⟩

theorem Weaker.own {now : Nat} {m n m' n' : Mining} (h : Weaker now m n) (hm : SameOwn now m' m) (hn : SameOwn now n' n)
    (hk : Kin m' n') : Weaker now m' n' :=
  ⟨hk, fun x hx => by have := h.less x hx; have := hm.equal x hx; have := hn.equal x hx; omega,
    hm.dates.trans (h.dates.trans hn.dates.symm)⟩

theorem refresh_own {cum : SMap} (hc : History cum) {now : Nat} {m m1 : Mining} (hm : MiningOk m)
    (h1 : m.refreshRewards now cum = .ok m1) : SameOwn now m1 m := by
  obtain ⟨a, b⟩ := refresh_weaker hc hm h1
  exact ⟨fun x hx => Nat.le_antisymm (a.less x hx) (b.less x hx), a.dates⟩

/-- The same for optional minings. -/
def OptOwn (now : Nat) (d d' : Option Mining) : Prop := ∀ x x', d = some x → d' = some x' → SameOwn now x' x

section
variable {now a : Nat} {p p1 : Pool} {m m' : Mining} {d d1 : Option Mining}

theorem add_own (hc : History p.cumulative) (hd : ∀ x, d = some x → MiningOk x)
    (h1 : p.withDelegate d (Pool.delegateAdd now a) = .ok (p1, d1)) : OptOwn now d d1 := by
  rintro x x' rfl rfl
  rw [withDelegate_some] at h1
  obtain ⟨x1, h1, h⟩ := h1
  cases h
  rw [delegateAdd_ok] at h1
  obtain ⟨-, -, g1, rfl⟩ := h1
  have h := refresh_own hc (m := { x with stakeFromOthers := x.stakeFromOthers + a }) ⟨(hd x rfl).1, (hd x rfl).2⟩ g1
  exact ⟨h.equal, h.dates⟩

theorem sub_own (hc : History p.cumulative) (hd : ∀ x, d = some x → MiningOk x)
    (h1 : p.withDelegate d (Pool.delegateSub now a) = .ok (p1, d1)) : OptOwn now d d1 := by
  rintro x x' rfl rfl
  rw [withDelegate_some] at h1
  obtain ⟨x1, h1, h⟩ := h1
  cases h
  rw [delegateSub_ok] at h1
  obtain ⟨-, -, g1, rfl⟩ := h1
  have h := refresh_own hc (m := { x with stakeFromOthers := x.stakeFromOthers - a }) ⟨(hd x rfl).1, (hd x rfl).2⟩ g1
  exact ⟨h.equal, h.dates⟩

theorem deposit_own {caps : Caps} {l : LockupPeriod} (hp : PoolOk now p) (hm : MiningOk m)
    (hd : ∀ x, d = some x → MiningOk x) (h1 : p.deposit caps now m a l d = .ok (p1, m', d1)) : OptOwn now d d1 := by
  obtain ⟨m1, x, r1, e1, -, -, -, -, -, -, rfl, k1⟩ := deposit_ok (refresh_sorted hp hm) h1
  exact add_own (p := { p with
          totalShare := p.totalShare + a * l.multiplier,
          diffs := addAt caps.pool p.diffs x (a * l.multiplier - a) }) hp.history hd k1

theorem StakeOp.own {caps : Caps} {i : Ix} (hp : PoolOk now p) (hm : MiningOk m)
    (hd : ∀ x, d = some x → MiningOk x) (h1 : StakeOp caps now p m d p1 m' d1 i) : OptOwn now d d1 := by
  cases i with
  | depositMining a l o dl => exact deposit_own hp hm hd h1
  | withdrawMining a o dl =>
    obtain ⟨m1, r1, -, -, rfl, k1⟩ := withdraw_ok hp.sorted h1
    exact sub_own (p := { p with
          totalShare := p.totalShare - a - dueBy p.diffs (bod now), diffs := after p.diffs (bod now) }) hp.history hd k1
  | extendStake ol nl ts b a o dl =>
    obtain ⟨m1, oe, q1, m2, p3, d3, r1, o1, c1, -, w1, x1⟩ := extend_ok (refresh_sorted hp hm) h1
    have om1 : MiningOk m1 := (refresh_same hp.history hm r1).2.1
    have hmid : MiningOk m2 ∧ PoolOk now q1 := by
      rcases c1 with ⟨y1, -, -, ⟨old, g1, t1, rfl⟩, b1, -, rfl⟩ | ⟨y1, b1, -, rfl, rfl⟩
      · exact ⟨⟨SMap.put_sorted om1.sorted _ _, put_aligned om1.aligned g1⟩, (Quiet.mk'' hp).ok⟩
      · exact ⟨⟨om1.1, om1.2⟩, (Quiet.mk'' hp).ok⟩
    obtain ⟨ok1, hq⟩ := hmid
    obtain ⟨a1, a2⟩ := withSub_same hq hd w1
    have z1 := sub_own hq.history hd w1
    have z2 := deposit_own a1.ok ok1 (optRest_ok a2) x1
    rintro x x' rfl rfl
    cases d3 with
    | none => exact a2.elim
    | some y => exact (z2 y x' rfl rfl).trans (z1 x y rfl rfl)
  | slash o n mu ex =>
    obtain ⟨-, rfl, -⟩ := h1
    rintro x x' h
    cases h
  | _ => exact h1.elim

end

end Verif
