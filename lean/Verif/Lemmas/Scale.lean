import Verif.Spec.Scale
import Verif.Lemmas.TwinRun
/-!
Operations on pools and minings with `c` times the stake.
-/

namespace Verif

open Spec

section Tables
variable {c : Nat} {l : SMap}

theorem timesTable_cons (e : Nat × Nat) : timesTable c (e :: l) = (e.1, c * e.2) :: timesTable c l := rfl

theorem timesTable_get (t : Nat) : SMap.get (timesTable c l) t = (SMap.get l t).map (c * ·) := by
  induction l with
  | nil => rfl
  | cons e l ih =>
    obtain ⟨d, v⟩ := e
    rw [timesTable_cons, SMap.get, SMap.get]
    split
    · rfl
    · exact ih

theorem timesTable_contains (t : Nat) : SMap.contains (timesTable c l) t = SMap.contains l t := by
  unfold SMap.contains
  rw [timesTable_get]
  cases SMap.get l t <;> rfl

theorem timesTable_length : (timesTable c l).length = l.length := List.length_map _

theorem timesTable_put (t v : Nat) : SMap.put (timesTable c l) t (c * v) = timesTable c (SMap.put l t v) := by
  induction l with
  | nil => rfl
  | cons e l ih =>
    obtain ⟨d, u⟩ := e
    rw [timesTable_cons, SMap.put, SMap.put]
    split
    · rfl
    · split
      · rfl
      · rw [ih]; rfl

theorem timesTable_insert (cap t v : Nat) :
    SMap.insert cap (timesTable c l) t (c * v) = timesTable c (SMap.insert cap l t v) := by
  unfold SMap.insert
  rw [timesTable_contains, timesTable_length, timesTable_put]
  split <;> rfl

theorem timesTable_addAt (cap t v : Nat) : addAt cap (timesTable c l) t (c * v) = timesTable c (addAt cap l t v) := by
  unfold addAt
  rw [← timesTable_insert, timesTable_get]
  congr 1
  cases SMap.get l t with
  | none => simp
  | some x => simp [Nat.mul_add]

theorem timesTable_dueBy (b : Nat) : dueBy (timesTable c l) b = c * dueBy l b := by
  induction l with
  | nil => rfl
  | cons e l ih =>
    rw [timesTable_cons, dueBy_cons, dueBy_cons, ih]
    simp only
    split <;> simp [Nat.mul_add]

theorem timesTable_after (b : Nat) : after (timesTable c l) b = timesTable c (after l b) := by
  unfold after timesTable
  rw [List.filter_map]
  rfl

theorem timesTable_reverse : (timesTable c l).reverse = timesTable c l.reverse := by
  unfold timesTable
  rw [List.map_reverse]

theorem timesTable_decrease (hc : 0 < c) (n : Nat) :
    Mining.decreaseLoop (c * n) (timesTable c l) = timesTable c (Mining.decreaseLoop n l) := by
  induction l generalizing n with
  | nil => rfl
  | cons e l ih =>
    obtain ⟨d, v⟩ := e
    rw [timesTable_cons, Mining.decreaseLoop, Mining.decreaseLoop]
    by_cases h : n ≤ v
    · rw [if_pos h, if_pos (Nat.mul_le_mul_left c h), timesTable_cons, Nat.mul_sub]
    · have h' : ¬ c * v ≥ c * n := fun h' => h (Nat.le_of_mul_le_mul_left h' hc)
      rw [if_neg h, if_neg h', timesTable_cons, ← Nat.mul_sub, ih]
      rfl

end Tables

theorem mul_right_times (c a x : Nat) : c * a * x = c * (a * x) := Nat.mul_assoc ..

variable {c : Nat}

/-- Bringing two minings up to date. -/
theorem refresh_times {cum cum' : SMap} (hc : History cum) (hc' : History cum') {now : Nat} {m m1 n n1 : Mining}
    (hm : MiningOk m) (hn : MiningOk n) (h : TimesStake c m n) (h1 : m.refreshRewards now cum = .ok m1)
    (h2 : n.refreshRewards now cum' = .ok n1) : TimesStake c m1 n1 := by
  obtain ⟨x, rfl, -⟩ := refresh_ok hc hm.sorted h1
  obtain ⟨y, rfl, -⟩ := refresh_ok hc' hn.sorted h2
  obtain ⟨u, i, rfl⟩ : ∃ u i, n =
      { m with share := c * m.share, stakeFromOthers := c * m.stakeFromOthers, diffs := timesTable c m.diffs, unclaimed := u,
               index := i } := ⟨_, _, h⟩
  unfold TimesStake
  simp only [timesTable_dueBy, timesTable_after, Nat.mul_sub]

/-- Two delegates before and after. -/
def DelTimes (c : Nat) (d d' e e' : Option Mining) : Prop :=
  ∀ x y, d = some x → e = some y → MiningOk x → MiningOk y → TimesStake c x y →
    ∃ x' y', d' = some x' ∧ e' = some y' ∧ MiningOk x' ∧ MiningOk y' ∧ TimesStake c x' y'

theorem DelTimes.trans {d d1 d2 e e1 e2 : Option Mining} (h : DelTimes c d d1 e e1) (h' : DelTimes c d1 d2 e1 e2) :
    DelTimes c d d2 e e2 := by
  intro x y hx hy hok hok' hst
  obtain ⟨x1, y1, a1, a2, a3, a4, a5⟩ := h x y hx hy hok hok' hst
  exact h' x1 y1 a1 a2 a3 a4 a5

/-- Pools as in `TimesStakes`, with the index tables given. -/
theorem Spec.TimesStakes.form {p q : Pool} (h : TimesStakes c p q) : ∃ i t, q =
      { p with totalShare := c * p.totalShare, diffs := timesTable c p.diffs, index := i, cumulative := t } ∧ t.map (·.1) = p.cumulative.map (·.1) :=
  ⟨_, _, h.1, h.2⟩

theorem Spec.TimesStake.form {m n : Mining} (h : TimesStake c m n) : ∃ u i, n =
      { m with share := c * m.share, stakeFromOthers := c * m.stakeFromOthers, diffs := timesTable c m.diffs, unclaimed := u,
               index := i } := ⟨_, _, h⟩

section
variable {now : Nat} {p p' q q' : Pool} {d d' e e' : Option Mining} {a : Nat}

theorem sub_times (hp : PoolOk now p) (hq : PoolOk now q) (h : TimesStakes c p q) (hde : BothSome d e)
    (h1 : p.withDelegate d (Pool.delegateSub now a) = .ok (p', d'))
    (h2 : q.withDelegate e (Pool.delegateSub now (c * a)) = .ok (q', e')) :
    TimesStakes c p' q' ∧ BothSome d' e' ∧ DelTimes c d d' e e' := by
  obtain ⟨i, t, rfl, ht⟩ := h.form
  cases d with
  | none =>
    cases e with
    | some _ => cases hde
    | none =>
      rw [withDelegate_none] at h1 h2
      obtain ⟨rfl, rfl⟩ := h1
      obtain ⟨rfl, rfl⟩ := h2
      exact ⟨h, rfl, by rintro x y ⟨⟩⟩
  | some d =>
    cases e with
    | none => cases hde
    | some e =>
      rw [withDelegate_some] at h1 h2
      obtain ⟨x1, h1, rfl⟩ := h1
      obtain ⟨y1, h2, rfl⟩ := h2
      rw [delegateSub_ok] at h1 h2
      obtain ⟨-, -, h1, rfl⟩ := h1
      obtain ⟨-, -, h2, rfl⟩ := h2
      refine ⟨⟨by simp only [Nat.mul_sub], ht⟩, rfl, ?_⟩
      rintro x y hx hy hok hok2 hst
      cases hx; cases hy
      have hok' : MiningOk { d with stakeFromOthers := d.stakeFromOthers - a } := ⟨hok.1, hok.2⟩
      have hok2' : MiningOk { e with stakeFromOthers := e.stakeFromOthers - c * a } := ⟨hok2.1, hok2.2⟩
      obtain ⟨u, i, rfl⟩ := hst.form
      exact ⟨_, _, rfl, rfl, (refresh_same hp.history hok' h1).2.1, (refresh_same hq.history hok2' h2).2.1,
        refresh_times hp.history hq.history hok' hok2' (by simp only [TimesStake, Nat.mul_sub]) h1 h2⟩

theorem add_times (hp : PoolOk now p) (hq : PoolOk now q) (h : TimesStakes c p q) (hde : BothSome d e)
    (h1 : p.withDelegate d (Pool.delegateAdd now a) = .ok (p', d'))
    (h2 : q.withDelegate e (Pool.delegateAdd now (c * a)) = .ok (q', e')) :
    TimesStakes c p' q' ∧ BothSome d' e' ∧ DelTimes c d d' e e' := by
  obtain ⟨i, t, rfl, ht⟩ := h.form
  cases d with
  | none =>
    cases e with
    | some _ => cases hde
    | none =>
      rw [withDelegate_none] at h1 h2
      obtain ⟨rfl, rfl⟩ := h1
      obtain ⟨rfl, rfl⟩ := h2
      exact ⟨h, rfl, by rintro x y ⟨⟩⟩
  | some d =>
    cases e with
    | none => cases hde
    | some e =>
      rw [withDelegate_some] at h1 h2
      obtain ⟨x1, h1, rfl⟩ := h1
      obtain ⟨y1, h2, rfl⟩ := h2
      rw [delegateAdd_ok] at h1 h2
      obtain ⟨-, -, h1, rfl⟩ := h1
      obtain ⟨-, -, h2, rfl⟩ := h2
      refine ⟨⟨by simp only [Nat.mul_add], ht⟩, rfl, ?_⟩
      rintro x y hx hy hok hok2 hst
      cases hx; cases hy
      have hok' : MiningOk { d with stakeFromOthers := d.stakeFromOthers + a } := ⟨hok.1, hok.2⟩
      have hok2' : MiningOk { e with stakeFromOthers := e.stakeFromOthers + c * a } := ⟨hok2.1, hok2.2⟩
      obtain ⟨u, i, rfl⟩ := hst.form
      exact ⟨_, _, rfl, rfl, (refresh_same hp.history hok' h1).2.1, (refresh_same hq.history hok2' h2).2.1,
        refresh_times hp.history hq.history hok' hok2' (by simp only [TimesStake, Nat.mul_add]) h1 h2⟩

variable {caps : Caps} {m m' n n' : Mining} {l : LockupPeriod}

/-- What is shown of every operation. -/
structure OpTimes (c : Nat) (p' q' : Pool) (m' n' : Mining) (d d' e e' : Option Mining) : Prop where
  pool : TimesStakes c p' q'
  mining : TimesStake c m' n'
  delegate : DelTimes c d d' e e'

theorem deposit_times (hp : PoolOk now p) (hq : PoolOk now q) (hm : MiningOk m) (hn : MiningOk n) (h : TimesStakes c p q)
    (hmn : TimesStake c m n) (hde : BothSome d e) (h1 : p.deposit caps now m a l d = .ok (p', m', d'))
    (h2 : q.deposit caps now n (c * a) l e = .ok (q', n', e')) : OpTimes c p' q' m' n' d d' e e' := by
  obtain ⟨m1, t, r1, t1, -, -, -, -, -, -, rfl, w1⟩ := deposit_ok (refresh_sorted hp hm) h1
  obtain ⟨n1, t', r2, t2, -, -, -, -, -, -, rfl, w2⟩ := deposit_ok (refresh_sorted hq hn) h2
  rw [t1] at t2; cases t2
  have k1 := refresh_times hp.history hq.history hm hn hmn r1 r2
  obtain ⟨u, i, rfl⟩ := k1.form
  have ht := end_aligned t1
  have hx : c * (a * l.multiplier) - c * a = c * (a * l.multiplier - a) := (Nat.mul_sub ..).symm
  obtain ⟨j1, -, j3⟩ := add_times (p := { p with
          totalShare := p.totalShare + a * l.multiplier,
          diffs := addAt caps.pool p.diffs t (a * l.multiplier - a) })
    (q := { q with
          totalShare := q.totalShare + c * a * l.multiplier,
          diffs := addAt caps.pool q.diffs t (c * a * l.multiplier - c * a) })
    (hp.withDiffs (addAt_sorted hp.sorted _ _ _) (addAt_aligned hp.aligned ht))
    (hq.withDiffs (addAt_sorted hq.sorted _ _ _) (addAt_aligned hq.aligned ht)) (by
      obtain ⟨i, t, rfl, ht⟩ := h.form
      exact ⟨by simp only [hx, timesTable_addAt, mul_right_times, Nat.mul_add], ht⟩) hde w1 w2
  exact ⟨j1, by simp only [TimesStake, hx, timesTable_addAt, mul_right_times, Nat.mul_add], j3⟩

theorem withdraw_times (hp : PoolOk now p) (hq : PoolOk now q) (hm : MiningOk m) (hn : MiningOk n) (h : TimesStakes c p q)
    (hmn : TimesStake c m n) (hde : BothSome d e) (h1 : p.withdraw now m a d = .ok (p', m', d'))
    (h2 : q.withdraw now n (c * a) e = .ok (q', n', e')) : OpTimes c p' q' m' n' d d' e e' := by
  obtain ⟨m1, r1, -, -, rfl, w1⟩ := withdraw_ok hp.sorted h1
  obtain ⟨n1, r2, -, -, rfl, w2⟩ := withdraw_ok hq.sorted h2
  have k1 := refresh_times hp.history hq.history hm hn hmn r1 r2
  obtain ⟨u, i, rfl⟩ := k1.form
  obtain ⟨j1, -, j3⟩ := sub_times (p := { p with
          totalShare := p.totalShare - a - dueBy p.diffs (bod now), diffs := after p.diffs (bod now) })
    (q := { q with totalShare := q.totalShare - c * a - dueBy q.diffs (bod now), diffs := after q.diffs (bod now) })
    (hp.withDiffs (after_sorted hp.sorted _) (after_aligned hp.aligned))
    (hq.withDiffs (after_sorted hq.sorted _) (after_aligned hq.aligned)) (by
      obtain ⟨i, t, rfl, ht⟩ := h.form
      exact ⟨by simp only [timesTable_dueBy, timesTable_after, Nat.mul_sub], ht⟩) hde w1 w2
  exact ⟨j1, by simp only [TimesStake, Nat.mul_sub], j3⟩

theorem slash_times (hp : PoolOk now p) (hq : PoolOk now q) (hm : MiningOk m) (hn : MiningOk n) (h : TimesStakes c p q)
    (hmn : TimesStake c m n) {x y : Nat} {z : Option Nat} (h1 : p.slash now m x y z = .ok (p', m'))
    (h2 : q.slash now n (c * x) (c * y) z = .ok (q', n')) : OpTimes c p' q' m' n' none none none none := by
  obtain ⟨m1, r1, -, -, w1⟩ := slash_ok hp.sorted (refresh_sorted hp hm) h1
  obtain ⟨n1, r2, -, -, w2⟩ := slash_ok hq.sorted (refresh_sorted hq hn) h2
  have k1 := refresh_times hp.history hq.history hm hn hmn r1 r2
  obtain ⟨u, i, rfl⟩ := k1.form
  obtain ⟨i, t, rfl, ht⟩ := h.form
  have hd : DelTimes c none none none none := by rintro x y ⟨⟩
  rcases w1 with ⟨e1, rfl, rfl⟩ | ⟨ts, om, op, rfl, -, g1, g2, -, -, rfl, rfl⟩
  · rcases w2 with ⟨-, rfl, rfl⟩ | ⟨ts, om, op, e2, -⟩
    · exact ⟨⟨by simp only [timesTable_dueBy, timesTable_after, Nat.mul_sub], ht⟩, by simp only [TimesStake, Nat.mul_sub], hd⟩
    · rw [e1] at e2; cases e2
  · rcases w2 with ⟨e2, -⟩ | ⟨ts, om, op, e2, -, g3, g4, -, -, rfl, rfl⟩
    · cases e2
    · cases e2
      simp only [timesTable_after, timesTable_get, g1, g2, Option.map_some, Option.some.injEq] at g3 g4
      subst g3; subst g4
      exact ⟨⟨by simp only [timesTable_dueBy, timesTable_after, ← Nat.mul_sub, timesTable_put], ht⟩,
        by simp only [TimesStake, ← Nat.mul_sub, timesTable_put], hd⟩

theorem extend_times (hp : PoolOk now p) (hq : PoolOk now q) (hm : MiningOk m) (hn : MiningOk n)
    (hd : ∀ x, d = some x → MiningOk x) (he : ∀ x, e = some x → MiningOk x) (h : TimesStakes c p q) (hmn : TimesStake c m n)
    (hde : BothSome d e) {ol nl : LockupPeriod} {ts b a : Nat}
    (h1 : p.extend caps now m ol nl ts b a d = .ok (p', m', d'))
    (h2 : q.extend caps now n ol nl ts (c * b) (c * a) e = .ok (q', n', e')) : OpTimes c p' q' m' n' d d' e e' := by
  obtain ⟨m1, oe, p2, m2, p3, d3, r1, o1, c1, -, w1, x1⟩ := extend_ok (refresh_sorted hp hm) h1
  obtain ⟨n1, oe', q2, n2, q3, e3, r2, o2, c2, -, w2, x2⟩ := extend_ok (refresh_sorted hq hn) h2
  have k1 := refresh_times hp.history hq.history hm hn hmn r1 r2
  have om1 : MiningOk m1 := (refresh_same hp.history hm r1).2.1
  have on1 : MiningOk n1 := (refresh_same hq.history hn r2).2.1
  obtain ⟨u, i, rfl⟩ := k1.form
  obtain ⟨i', t, rfl, ht⟩ := h.form
  have hoe : oe = oe' := by
    rcases o1 with ⟨z1, rfl⟩ | ⟨z1, z2⟩
    · rcases o2 with ⟨-, rfl⟩ | ⟨z3, -⟩
      · rfl
      · exact absurd z1 z3
    · rcases o2 with ⟨z3, -⟩ | ⟨-, z3⟩
      · exact absurd z3 z1
      · rw [z2] at z3; cases z3; rfl
  subst hoe
  have hx : c * (b * ol.multiplier) - c * b = c * (b * ol.multiplier - b) := (Nat.mul_sub ..).symm
  have hmid : TimesStake c m2 n2 ∧ TimesStakes c p2 q2 ∧ MiningOk m2 ∧ MiningOk n2 ∧ PoolOk now p2 ∧ PoolOk now q2 := by
    rcases c1 with ⟨y1, -, -, ⟨old, g1, -, rfl⟩, -, -, rfl⟩ | ⟨y1, -, -, rfl, rfl⟩
    · rcases c2 with ⟨-, -, -, ⟨old', g2, -, rfl⟩, -, -, rfl⟩ | ⟨y2, -⟩
      · have g3 := g2
        simp only [timesTable_get, g1, Option.map_some, Option.some.injEq] at g2
        subst g2
        refine ⟨?_, ⟨?_, ht⟩, ?_, ?_, (Quiet.mk'' hp).ok, (Quiet.mk'' hq).ok⟩
        · simp only [TimesStake, hx, ← Nat.mul_sub, timesTable_put, mul_right_times]
        · simp only [← Nat.mul_sub, mul_right_times]
        · exact ⟨SMap.put_sorted om1.sorted _ _, put_aligned om1.aligned g1⟩
        · exact ⟨SMap.put_sorted on1.sorted _ _, put_aligned on1.aligned g3⟩
      · exact absurd y1 y2
    · rcases c2 with ⟨y2, -⟩ | ⟨-, -, -, rfl, rfl⟩
      · exact absurd y2 y1
      · exact ⟨by simp only [TimesStake, Nat.mul_sub], ⟨by simp only [Nat.mul_sub], ht⟩, ⟨om1.1, om1.2⟩, ⟨on1.1, on1.2⟩,
          (Quiet.mk'' hp).ok, (Quiet.mk'' hq).ok⟩
  obtain ⟨f1, f2, f3, f4, f5, f6⟩ := hmid
  obtain ⟨q3', -⟩ := withSub_same f5 hd w1
  obtain ⟨q4', -⟩ := withSub_same f6 he w2
  obtain ⟨j1, j2, j3⟩ := sub_times f5 f6 f2 hde w1 w2
  rw [← Nat.mul_add] at x2
  obtain ⟨g1, g2, g3⟩ := deposit_times q3'.ok q4'.ok f3 f4 j1 f1 j2 x1 x2
  exact ⟨g1, g2, j3.trans g3⟩

theorem redelegate_times (hp : PoolOk now p) (hq : PoolOk now q) (hm : MiningOk m) (hn : MiningOk n) (h : TimesStakes c p q)
    (hmn : TimesStake c m n) {nd nd' od od' ne ne' oe oe' : Option Mining} (hdo : ∀ x, od = some x → MiningOk x)
    (heo : ∀ x, oe = some x → MiningOk x) (hN : BothSome nd ne) (hO : BothSome od oe)
    (h1 : p.changeDelegate now m nd od a = .ok (p', m', nd', od'))
    (h2 : q.changeDelegate now n ne oe (c * a) = .ok (q', n', ne', oe')) :
    OpTimes c p' q' m' n' nd nd' ne ne' ∧ DelTimes c od od' oe oe' := by
  rw [changeDelegate_ok] at h1 h2
  obtain ⟨r1, p1, x1, y1⟩ := h1
  obtain ⟨r2, q1, x2, y2⟩ := h2
  have k1 := refresh_times hp.history hq.history hm hn hmn r1 r2
  obtain ⟨o1, -⟩ := withSub_same hp hdo x1
  obtain ⟨o2, -⟩ := withSub_same hq heo x2
  obtain ⟨j1, -, j3⟩ := sub_times hp hq h hO x1 x2
  obtain ⟨g1, -, g3⟩ := add_times o1.ok o2.ok j1 hN y1 y2
  exact ⟨⟨g1, k1, g3⟩, j3⟩

theorem decrease_times (hc : 0 < c) (h : TimesStake c m n) (h1 : m.decreaseRewards a = .ok m')
    (h2 : n.decreaseRewards (c * a) = .ok n') : TimesStake c m' n' := by
  have h0 := h
  obtain ⟨u, i, rfl⟩ := h.form
  unfold Mining.decreaseRewards at h1 h2
  by_cases ha : a = 0
  · subst ha
    rw [if_pos rfl] at h1
    rw [if_pos (Nat.mul_zero c)] at h2
    cases h1; cases h2
    exact h0
  · rw [if_neg ha] at h1
    rw [if_neg (Nat.ne_of_gt (Nat.mul_pos hc (Nat.pos_of_ne_zero ha)))] at h2
    simp only [res_bind_ok, ensure_ok, safeSub_ok, res_pure_ok] at h1 h2
    obtain ⟨-, -, _, ⟨-, rfl⟩, rfl⟩ := h1
    obtain ⟨-, -, _, ⟨-, rfl⟩, rfl⟩ := h2
    simp only [TimesStake, timesTable_reverse, timesTable_decrease hc, Nat.mul_sub]

/-- A distribution. -/
theorem distribute_times (hc : 0 < c) (hp : PoolOk now p) (hq : PoolOk now q) (h : TimesStakes c p q) {x : Nat}
    (h1 : p.distribute caps now x = .ok p') (h2 : q.distribute caps now x = .ok q') : TimesStakes c p' q' := by
  obtain ⟨i, t, rfl, ht⟩ := h.form
  have hcon : ∀ k, SMap.contains t k = SMap.contains p.cumulative k := by
    intro k
    rw [Bool.eq_iff_iff, SMap.contains_iff, SMap.contains_iff]
    have : ∀ l : SMap, (∃ e ∈ l, e.1 = k) ↔ k ∈ l.map (·.1) := by intro l; simp
    rw [this, this, ht]
  have hlen : t.length = p.cumulative.length := by
    have := congrArg List.length ht
    simpa using this
  have hput : ∀ (l l' : SMap) k v v', l.map (·.1) = l'.map (·.1) → (SMap.put l k v).map (·.1) = (SMap.put l' k v').map (·.1) := by
    intro l
    induction l with
    | nil =>
      intro l' k v v' hl
      cases l' with
      | nil => rfl
      | cons => cases hl
    | cons a l ih =>
      intro l' k v v' hl
      cases l' with
      | nil => cases hl
      | cons b l' =>
        obtain ⟨a1, a2⟩ := a
        obtain ⟨b1, b2⟩ := b
        simp only [List.map_cons, List.cons.injEq] at hl
        obtain ⟨rfl, hl⟩ := hl
        unfold SMap.put
        split
        · simp [hl]
        · split
          · simp [hl]
          · simp [ih l' k v v' hl]
  rw [distribute_ok hp.sorted] at h1
  rw [distribute_ok hq.sorted] at h2
  simp only [hcon] at h2
  obtain ⟨-, -, h1⟩ := h1
  obtain ⟨-, -, h2⟩ := h2
  rcases h1 with ⟨y1, rfl⟩ | ⟨y1, -, -, -, -, rfl⟩
  · rcases h2 with ⟨-, rfl⟩ | ⟨y2, -⟩
    · exact ⟨by simp only [timesTable_dueBy, timesTable_after, Nat.mul_sub], ht⟩
    · exact absurd y1 y2
  · rcases h2 with ⟨y2, -⟩ | ⟨-, -, -, -, -, rfl⟩
    · exact absurd y2 y1
    · refine ⟨by simp only [timesTable_dueBy, timesTable_after, Nat.mul_sub], ?_⟩
      simp only [SMap.insert, hcon, hlen]
      split
      · exact hput _ _ _ _ _ ht
      · exact ht

/-- Every stake operation. -/
theorem StakeOp.times {i : Ix} (hp : PoolOk now p) (hq : PoolOk now q) (hm : MiningOk m) (hn : MiningOk n)
    (hd : ∀ x, d = some x → MiningOk x) (he : ∀ x, e = some x → MiningOk x) (h : TimesStakes c p q) (hmn : TimesStake c m n)
    (hde : BothSome d e) (h1 : StakeOp caps now p m d p' m' d' i) (h2 : StakeOp caps now q n e q' n' e' (timesIx c i)) :
    OpTimes c p' q' m' n' d d' e e' := by
  cases i with
  | depositMining a l o dl => exact deposit_times hp hq hm hn h hmn hde h1 h2
  | withdrawMining a o dl => exact withdraw_times hp hq hm hn h hmn hde h1 h2
  | extendStake ol nl ts b a o dl => exact extend_times hp hq hm hn hd he h hmn hde h1 h2
  | slash o n mu ex =>
    obtain ⟨h1, rfl, rfl⟩ := h1
    obtain ⟨h2, rfl, rfl⟩ := h2
    exact slash_times hp hq hm hn h hmn h1 h2
  | _ => exact h1.elim

end

end Verif
