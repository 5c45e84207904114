import Verif.Spec.Filling
import Verif.Lemmas.Preserve
import Verif.Lemmas.Steps
import Verif.Lemmas.Distribution
/-!
The same operation applied to two pools and minings that differ in their rewards.
-/

namespace Verif

open Spec

/-- The index after the first `n` distributions of a list. -/
def idx (c : SMap) (n : Nat) : Nat := lastIndex 0 (c.take n)

/-- `c'` distributes on the same days at least as much as `c`. -/
def Dom (c c' : SMap) : Prop :=
  c.map (·.1) = c'.map (·.1) ∧ ∀ a b, a ≤ b → b ≤ c.length → idx c b + idx c' a ≤ idx c' b + idx c a

/-- Two indices are up to date with the same distribution. -/
def Sync (c c' : SMap) (i i' : Nat) : Prop := ∃ a, a ≤ c.length ∧ i = idx c a ∧ i' = idx c' a

/-- What happens to two minings: the second gains at least as much. -/
def Fares (c c' : SMap) (m m1 n n1 : Mining) : Prop :=
  Dom c c' → Sync c c' m.index n.index →
    Sync c c' m1.index n1.index ∧ m1.unclaimed + n.unclaimed ≤ n1.unclaimed + m.unclaimed

theorem Fares.trans {c c' : SMap} {m m1 m2 n n1 n2 : Mining} (h : Fares c c' m m1 n n1) (h' : Fares c c' m1 m2 n1 n2) :
    Fares c c' m m2 n n2 := by
  intro hd hs
  obtain ⟨a, b⟩ := h hd hs
  obtain ⟨a', b'⟩ := h' hd a
  exact ⟨a', by omega⟩

theorem Fares.of_eq {c c' : SMap} {m m1 n n1 : Mining} (h1 : m1.index = m.index) (h2 : m1.unclaimed = m.unclaimed)
    (h3 : n1.index = n.index) (h4 : n1.unclaimed = n.unclaimed) : Fares c c' m m1 n n1 := by
  intro _ hs
  rw [h1, h2, h3, h4]
  exact ⟨hs, by omega⟩

theorem idx_mono {c : SMap} (hc : History c) {a b : Nat} (h : a ≤ b) : idx c a ≤ idx c b := by
  unfold idx
  have hm : MonoFrom 0 c := hc.monoFrom
  have e : c.take b = c.take a ++ (c.take b).drop a := by
    conv => lhs; rw [← List.take_append_drop a (c.take b)]
    rw [List.take_take, Nat.min_eq_left h]
  have hm' : MonoFrom 0 (c.take b) := by
    rw [← List.take_append_drop b c] at hm
    exact (MonoFrom.append.mp hm).1
  rw [e] at hm' ⊢
  rw [lastIndex_append]
  exact (MonoFrom.append.mp hm').2.le_last

theorem filter_take {c : SMap} (hs : Sorted c) (t : Nat) :
    c.filter (fun e => decide (e.1 < t)) = c.take ((c.map (·.1)).countP fun d => decide (d < t)) := by
  induction c with
  | nil => rfl
  | cons a l ih =>
    obtain ⟨h1, h2⟩ := sorted_cons.mp hs
    by_cases ha : a.1 < t
    · rw [List.filter_cons_of_pos (by simpa using ha), List.map_cons, List.countP_cons_of_pos (by simpa using ha),
        List.take_succ_cons, ih h2]
    · have e1 : l.filter (fun e => decide (e.1 < t)) = [] := by
        rw [List.filter_eq_nil_iff]
        intro x hx
        have := h1 x hx
        simp only [decide_eq_true_eq]
        omega
      have e2 : (l.map (·.1)).countP (fun d => decide (d < t)) = 0 := by
        rw [List.countP_eq_zero]
        intro x hx
        obtain ⟨y, hy, rfl⟩ := List.mem_map.mp hx
        have := h1 y hy
        simp only [decide_eq_true_eq]
        omega
      rw [List.filter_cons_of_neg (by simpa using ha), List.map_cons, List.countP_cons_of_neg (by simpa using ha), e1, e2]
      rfl

/-- The index before `t` is the one after the same number of distributions in both histories. -/
theorem indexBefore_pair {c c' : SMap} (hc : Sorted c) (hc' : Sorted c') (hd : c.map (·.1) = c'.map (·.1)) (t : Nat) :
    ∃ b, b ≤ c.length ∧ indexBefore c t = idx c b ∧ indexBefore c' t = idx c' b := by
  refine ⟨(c.map (·.1)).countP fun d => decide (d < t), ?_, ?_, ?_⟩
  · have := List.countP_le_length (p := fun d => decide (d < t)) (l := c.map (·.1))
    simpa using this
  · unfold indexBefore idx; rw [filter_take hc]
  · unfold indexBefore idx; rw [filter_take hc', hd]

/-- One update of the index. -/
theorem updateIndex_pair {c c' : SMap} (hc : History c) (hc' : History c') (hd : Dom c c') {i i' : Nat}
    (hs : Sync c c' i i') {date share u u' v v' j j' : Nat} (h1 : Mining.updateIndex c date share u i = .ok (v, j))
    (h2 : Mining.updateIndex c' date share u' i' = .ok (v', j')) : Sync c c' j j' ∧ v + u' ≤ v' + u := by
  rw [updateIndex_ok hc.sorted] at h1
  rw [updateIndex_ok hc'.sorted] at h2
  obtain ⟨a1, -, -, -, rfl, rfl⟩ := h1
  obtain ⟨b1, -, -, -, rfl, rfl⟩ := h2
  obtain ⟨b, hb, e1, e2⟩ := indexBefore_pair hc.sorted hc'.sorted hd.1 date
  obtain ⟨a, ha, rfl, rfl⟩ := hs
  rw [e1] at a1 ⊢
  rw [e2] at b1 ⊢
  refine ⟨⟨b, hb, rfl, rfl⟩, ?_⟩
  have key : idx c b - idx c a ≤ idx c' b - idx c' a := by
    rcases Nat.le_total a b with h | h
    · have := hd.2 a b h hb; omega
    · have := idx_mono hc h; omega
  have := Nat.div_le_div_right (c := PRECISION) (Nat.mul_le_mul_right share key)
  omega

theorem consumeLoop_pair {c c' : SMap} (hc : History c) (hc' : History c') (hd : Dom c c') {b : Nat}
    {D : List (Nat × Nat)} {s t s' t' : Mining.Consume} (hst : s.totalShare = t.totalShare)
    (hi : Sync c c' s.index t.index) (h1 : Mining.consumeLoop c b D s = .ok s')
    (h2 : Mining.consumeLoop c' b D t = .ok t') :
    Sync c c' s'.index t'.index ∧ s'.totalShare = t'.totalShare ∧ s'.unclaimed + t.unclaimed ≤ t'.unclaimed + s.unclaimed := by
  induction D generalizing s t with
  | nil =>
    simp only [Mining.consumeLoop, Except.ok.injEq] at h1 h2
    subst h1; subst h2
    exact ⟨hi, hst, by omega⟩
  | cons e D ih =>
    obtain ⟨d, v⟩ := e
    rw [Mining.consumeLoop] at h1 h2
    by_cases hb : d > b
    · rw [if_pos hb] at h1 h2
      cases h1; cases h2
      exact ⟨hi, hst, by omega⟩
    · rw [if_neg hb] at h1 h2
      simp only [res_bind_ok, Prod.exists, safeSub_ok] at h1 h2
      obtain ⟨u1, i1, x1, _, ⟨-, rfl⟩, y1⟩ := h1
      obtain ⟨u2, i2, x2, _, ⟨-, rfl⟩, y2⟩ := h2
      rw [← hst] at x2
      obtain ⟨z1, z2⟩ := updateIndex_pair hc hc' hd hi x1 x2
      obtain ⟨k1, k2, k3⟩ := ih (by simp only [hst]) z1 y1 y2
      refine ⟨k1, k2, ?_⟩
      simp only at k3
      omega

/-- Bringing two minings with the same stakes up to date. -/
theorem refresh_pair {c c' : SMap} (hc : History c) (hc' : History c') {now : Nat} {m m1 n n1 : Mining} (hm : MiningOk m)
    (h : SameStake m n) (h1 : m.refreshRewards now c = .ok m1) (h2 : n.refreshRewards now c' = .ok n1) :
    SameStake m1 n1 ∧ Fares c c' m m1 n n1 := by
  obtain ⟨u, i, rfl⟩ : ∃ u i, n = { m with unclaimed := u, index := i } := ⟨_, _, h⟩
  refine ⟨?_, ?_⟩
  · obtain ⟨x, rfl, -⟩ := refresh_ok hc hm.sorted h1
    obtain ⟨y, rfl, -⟩ := refresh_ok hc' (by exact hm.sorted) h2
    rfl
  · intro hd hs
    unfold Mining.refreshRewards Mining.consumeOldModifiers at h1 h2
    simp only [res_bind_ok, Prod.exists, safeAdd64_ok, safeSub_ok, res_pure_ok, Prod.mk.injEq] at h1 h2
    obtain ⟨sh, ⟨-, rfl⟩, m2, sh1, ⟨s, hs1, rfl, rfl⟩, u1, i1, hu1, sh2, ⟨-, rfl⟩, rfl⟩ := h1
    obtain ⟨_, ⟨-, rfl⟩, n2, sh1', ⟨t, hs2, rfl, rfl⟩, u2, i2, hu2, sh2', ⟨-, rfl⟩, rfl⟩ := h2
    have hs' : Sync c c' m.index i := hs
    obtain ⟨k1, k2, k3⟩ := consumeLoop_pair hc hc' hd (by rfl) (by exact hs') hs1 hs2
    simp only at k3 hu1 hu2 ⊢
    rw [← k2] at hu2
    obtain ⟨z1, z2⟩ := updateIndex_pair hc hc' hd k1 hu1 hu2
    exact ⟨z1, by omega⟩

/-- Two delegates before and after. -/
def DelPair (c c' : SMap) (d d' e e' : Option Mining) : Prop :=
  ∀ x y, d = some x → e = some y → MiningOk x → SameStake x y →
    ∃ x' y', d' = some x' ∧ e' = some y' ∧ MiningOk x' ∧ SameStake x' y' ∧ Fares c c' x x' y y'

theorem DelPair.trans {c c' : SMap} {d d1 d2 e e1 e2 : Option Mining} (h : DelPair c c' d d1 e e1)
    (h' : DelPair c c' d1 d2 e1 e2) : DelPair c c' d d2 e e2 := by
  intro x y hx hy hok hst
  obtain ⟨x1, y1, a1, a2, a3, a4, a5⟩ := h x y hx hy hok hst
  obtain ⟨x2, y2, b1, b2, b3, b4, b5⟩ := h' x1 y1 a1 a2 a3 a4
  exact ⟨x2, y2, b1, b2, b3, b4, a5.trans b5⟩

/-- Both have a delegate or neither. -/
def BothSome (d e : Option Mining) : Prop := d.isSome = e.isSome

section
variable {now : Nat} {p p' q q' : Pool} {d d' e e' : Option Mining} {a : Nat}

theorem sub_pair (hp : PoolOk now p) (hq : PoolOk now q) (h : SameStakes p q) (hde : BothSome d e)
    (h1 : p.withDelegate d (Pool.delegateSub now a) = .ok (p', d'))
    (h2 : q.withDelegate e (Pool.delegateSub now a) = .ok (q', e')) :
    SameStakes p' q' ∧ BothSome d' e' ∧ DelPair p.cumulative q.cumulative d d' e e' ∧ p'.cumulative = p.cumulative ∧
      q'.cumulative = q.cumulative := by
  obtain ⟨t, x, i, c, rfl⟩ : ∃ t x i c,
      q = { p with tokensAvailable := t, distributionEndsAt := x, index := i, cumulative := c } := ⟨_, _, _, _, h⟩
  cases d with
  | none =>
    cases e with
    | some _ => cases hde
    | none =>
      rw [withDelegate_none] at h1 h2
      obtain ⟨rfl, rfl⟩ := h1
      obtain ⟨rfl, rfl⟩ := h2
      exact ⟨rfl, rfl, by rintro x y ⟨⟩, rfl, rfl⟩
  | some d =>
    cases e with
    | none => cases hde
    | some e =>
      rw [withDelegate_some] at h1 h2
      obtain ⟨x1, h1, rfl⟩ := h1
      obtain ⟨y1, h2, rfl⟩ := h2
      rw [delegateSub_ok] at h1 h2
      obtain ⟨-, -, h1, rfl⟩ := h1
      obtain ⟨-, -, h2, rfl⟩ := h2
      refine ⟨rfl, rfl, ?_, rfl, rfl⟩
      rintro x y hx hy hok hst
      cases hx; cases hy
      obtain ⟨u, i, rfl⟩ : ∃ u i, e = { d with unclaimed := u, index := i } := ⟨_, _, hst⟩
      have hok' : MiningOk { d with stakeFromOthers := d.stakeFromOthers - a } := ⟨hok.1, hok.2⟩
      obtain ⟨k1, k2⟩ := refresh_pair hp.history hq.history hok' (by rfl) h1 h2
      exact ⟨_, _, rfl, rfl, (refresh_same hp.history hok' h1).2.1, k1, k2⟩

theorem add_pair (hp : PoolOk now p) (hq : PoolOk now q) (h : SameStakes p q) (hde : BothSome d e)
    (h1 : p.withDelegate d (Pool.delegateAdd now a) = .ok (p', d'))
    (h2 : q.withDelegate e (Pool.delegateAdd now a) = .ok (q', e')) :
    SameStakes p' q' ∧ BothSome d' e' ∧ DelPair p.cumulative q.cumulative d d' e e' ∧ p'.cumulative = p.cumulative ∧
      q'.cumulative = q.cumulative := by
  obtain ⟨t, x, i, c, rfl⟩ : ∃ t x i c,
      q = { p with tokensAvailable := t, distributionEndsAt := x, index := i, cumulative := c } := ⟨_, _, _, _, h⟩
  cases d with
  | none =>
    cases e with
    | some _ => cases hde
    | none =>
      rw [withDelegate_none] at h1 h2
      obtain ⟨rfl, rfl⟩ := h1
      obtain ⟨rfl, rfl⟩ := h2
      exact ⟨rfl, rfl, by rintro x y ⟨⟩, rfl, rfl⟩
  | some d =>
    cases e with
    | none => cases hde
    | some e =>
      rw [withDelegate_some] at h1 h2
      obtain ⟨x1, h1, rfl⟩ := h1
      obtain ⟨y1, h2, rfl⟩ := h2
      rw [delegateAdd_ok] at h1 h2
      obtain ⟨-, -, h1, rfl⟩ := h1
      obtain ⟨-, -, h2, rfl⟩ := h2
      refine ⟨rfl, rfl, ?_, rfl, rfl⟩
      rintro x y hx hy hok hst
      cases hx; cases hy
      obtain ⟨u, i, rfl⟩ : ∃ u i, e = { d with unclaimed := u, index := i } := ⟨_, _, hst⟩
      have hok' : MiningOk { d with stakeFromOthers := d.stakeFromOthers + a } := ⟨hok.1, hok.2⟩
      obtain ⟨k1, k2⟩ := refresh_pair hp.history hq.history hok' (by rfl) h1 h2
      exact ⟨_, _, rfl, rfl, (refresh_same hp.history hok' h1).2.1, k1, k2⟩

variable {caps : Caps} {m m' n n' : Mining} {l : LockupPeriod}

/-- What is shown of every operation. -/
structure OpPair (p p' q q' : Pool) (m m' n n' : Mining) (d d' e e' : Option Mining) : Prop where
  pool : SameStakes p' q'
  mining : SameStake m' n'
  fares : Fares p.cumulative q.cumulative m m' n n'
  delegate : DelPair p.cumulative q.cumulative d d' e e'

theorem deposit_pair (hp : PoolOk now p) (hq : PoolOk now q) (hm : MiningOk m) (h : SameStakes p q) (hmn : SameStake m n)
    (hde : BothSome d e) (h1 : p.deposit caps now m a l d = .ok (p', m', d'))
    (h2 : q.deposit caps now n a l e = .ok (q', n', e')) : OpPair p p' q q' m m' n n' d d' e e' := by
  have hn : MiningOk n := by rw [hmn]; exact ⟨hm.1, hm.2⟩
  obtain ⟨m1, t, r1, t1, -, -, -, -, -, -, rfl, w1⟩ := deposit_ok (refresh_sorted hp hm) h1
  obtain ⟨n1, t', r2, t2, -, -, -, -, -, -, rfl, w2⟩ := deposit_ok (refresh_sorted hq hn) h2
  rw [t1] at t2; cases t2
  obtain ⟨k1, k2⟩ := refresh_pair hp.history hq.history hm hmn r1 r2
  obtain ⟨u, i, rfl⟩ : ∃ u i, n1 = { m1 with unclaimed := u, index := i } := ⟨_, _, k1⟩
  have ht := end_aligned t1
  obtain ⟨j1, -, j3, -⟩ := add_pair (p := { p with
          totalShare := p.totalShare + a * l.multiplier,
          diffs := addAt caps.pool p.diffs t (a * l.multiplier - a) })
    (q := { q with
          totalShare := q.totalShare + a * l.multiplier,
          diffs := addAt caps.pool q.diffs t (a * l.multiplier - a) })
    (hp.withDiffs (addAt_sorted hp.sorted _ _ _) (addAt_aligned hp.aligned ht))
    (hq.withDiffs (addAt_sorted hq.sorted _ _ _) (addAt_aligned hq.aligned ht)) (by rw [h]; rfl) hde w1 w2
  exact ⟨j1, rfl, k2.trans (.of_eq rfl rfl rfl rfl), j3⟩

theorem withdraw_pair (hp : PoolOk now p) (hq : PoolOk now q) (hm : MiningOk m) (h : SameStakes p q) (hmn : SameStake m n)
    (hde : BothSome d e) (h1 : p.withdraw now m a d = .ok (p', m', d')) (h2 : q.withdraw now n a e = .ok (q', n', e')) :
    OpPair p p' q q' m m' n n' d d' e e' := by
  obtain ⟨m1, r1, -, -, rfl, w1⟩ := withdraw_ok hp.sorted h1
  obtain ⟨n1, r2, -, -, rfl, w2⟩ := withdraw_ok hq.sorted h2
  obtain ⟨k1, k2⟩ := refresh_pair hp.history hq.history hm hmn r1 r2
  obtain ⟨u, i, rfl⟩ : ∃ u i, n1 = { m1 with unclaimed := u, index := i } := ⟨_, _, k1⟩
  obtain ⟨j1, -, j3, -⟩ := sub_pair (p := { p with
          totalShare := p.totalShare - a - dueBy p.diffs (bod now), diffs := after p.diffs (bod now) })
    (q := { q with totalShare := q.totalShare - a - dueBy q.diffs (bod now), diffs := after q.diffs (bod now) })
    (hp.withDiffs (after_sorted hp.sorted _) (after_aligned hp.aligned))
    (hq.withDiffs (after_sorted hq.sorted _) (after_aligned hq.aligned)) (by rw [h]; rfl) hde w1 w2
  exact ⟨j1, rfl, k2.trans (.of_eq rfl rfl rfl rfl), j3⟩

theorem slash_pair (hp : PoolOk now p) (hq : PoolOk now q) (hm : MiningOk m) (h : SameStakes p q) (hmn : SameStake m n)
    {x y : Nat} {z : Option Nat} (h1 : p.slash now m x y z = .ok (p', m')) (h2 : q.slash now n x y z = .ok (q', n')) :
    OpPair p p' q q' m m' n n' none none none none := by
  have hn : MiningOk n := by rw [hmn]; exact ⟨hm.1, hm.2⟩
  obtain ⟨m1, r1, -, -, w1⟩ := slash_ok hp.sorted (refresh_sorted hp hm) h1
  obtain ⟨n1, r2, -, -, w2⟩ := slash_ok hq.sorted (refresh_sorted hq hn) h2
  obtain ⟨k1, k2⟩ := refresh_pair hp.history hq.history hm hmn r1 r2
  obtain ⟨u, i, rfl⟩ : ∃ u i, n1 = { m1 with unclaimed := u, index := i } := ⟨_, _, k1⟩
  obtain ⟨t, x, i, c, rfl⟩ : ∃ t x i c,
      q = { p with tokensAvailable := t, distributionEndsAt := x, index := i, cumulative := c } := ⟨_, _, _, _, h⟩
  have hd : DelPair p.cumulative c none none none none := by rintro x y ⟨⟩
  rcases w1 with ⟨e1, rfl, rfl⟩ | ⟨ts, om, op, rfl, -, g1, g2, -, -, rfl, rfl⟩
  · rcases w2 with ⟨-, rfl, rfl⟩ | ⟨ts, om, op, e2, -⟩
    · exact ⟨rfl, rfl, k2.trans (.of_eq rfl rfl rfl rfl), hd⟩
    · rw [e1] at e2; cases e2
  · rcases w2 with ⟨e2, -⟩ | ⟨ts, om, op, e2, -, g3, g4, -, -, rfl, rfl⟩
    · cases e2
    · cases e2
      simp only at g3 g4
      rw [g1] at g3; cases g3
      rw [g2] at g4; cases g4
      exact ⟨rfl, rfl, k2.trans (.of_eq rfl rfl rfl rfl), hd⟩

theorem extend_pair (hp : PoolOk now p) (hq : PoolOk now q) (hm : MiningOk m) (hd : ∀ x, d = some x → MiningOk x)
    (he : ∀ x, e = some x → MiningOk x) (h : SameStakes p q) (hmn : SameStake m n)
    (hde : BothSome d e) {ol nl : LockupPeriod} {ts b a : Nat}
    (h1 : p.extend caps now m ol nl ts b a d = .ok (p', m', d'))
    (h2 : q.extend caps now n ol nl ts b a e = .ok (q', n', e')) : OpPair p p' q q' m m' n n' d d' e e' := by
  have hn : MiningOk n := by rw [hmn]; exact ⟨hm.1, hm.2⟩
  obtain ⟨m1, oe, p2, m2, p3, d3, r1, o1, c1, -, w1, x1⟩ := extend_ok (refresh_sorted hp hm) h1
  obtain ⟨n1, oe', q2, n2, q3, e3, r2, o2, c2, -, w2, x2⟩ := extend_ok (refresh_sorted hq hn) h2
  obtain ⟨k1, k2⟩ := refresh_pair hp.history hq.history hm hmn r1 r2
  have om1 : MiningOk m1 := (refresh_same hp.history hm r1).2.1
  obtain ⟨u, i, rfl⟩ : ∃ u i, n1 = { m1 with unclaimed := u, index := i } := ⟨_, _, k1⟩
  obtain ⟨t, x, i', c, rfl⟩ : ∃ t x i c,
      q = { p with tokensAvailable := t, distributionEndsAt := x, index := i, cumulative := c } := ⟨_, _, _, _, h⟩
  have hoe : oe = oe' := by
    rcases o1 with ⟨z1, rfl⟩ | ⟨z1, z2⟩
    · rcases o2 with ⟨-, rfl⟩ | ⟨z3, -⟩
      · rfl
      · exact absurd z1 z3
    · rcases o2 with ⟨z3, -⟩ | ⟨-, z3⟩
      · exact absurd z3 z1
      · rw [z2] at z3; cases z3; rfl
  subst hoe
  have hmid : SameStake m2 n2 ∧ m2.index = m1.index ∧ m2.unclaimed = m1.unclaimed ∧ n2.index = i ∧ n2.unclaimed = u ∧
      SameStakes p2 q2 ∧ MiningOk m2 ∧ p2.cumulative = p.cumulative ∧ q2.cumulative = c ∧ PoolOk now p2 ∧ PoolOk now q2 := by
    rcases c1 with ⟨y1, -, -, ⟨old, g1, -, rfl⟩, -, -, rfl⟩ | ⟨y1, -, -, rfl, rfl⟩
    · rcases c2 with ⟨-, -, -, ⟨old', g2, -, rfl⟩, -, -, rfl⟩ | ⟨y2, -⟩
      · simp only at g2
        rw [g1] at g2; cases g2
        refine ⟨rfl, rfl, rfl, rfl, rfl, rfl, ?_, rfl, rfl, (Quiet.mk'' hp).ok, (Quiet.mk'' hq).ok⟩
        exact ⟨SMap.put_sorted om1.sorted _ _, put_aligned om1.aligned g1⟩
      · exact absurd y1 y2
    · rcases c2 with ⟨y2, -⟩ | ⟨-, -, -, rfl, rfl⟩
      · exact absurd y2 y1
      · exact ⟨rfl, rfl, rfl, rfl, rfl, rfl, ⟨om1.1, om1.2⟩, rfl, rfl, (Quiet.mk'' hp).ok, (Quiet.mk'' hq).ok⟩
  obtain ⟨f1, f2, f3, f4, f5, f6, f7, f8, f9, f10, f11⟩ := hmid
  obtain ⟨q3', -⟩ := withSub_same f10 hd w1
  obtain ⟨q4', -⟩ := withSub_same f11 he w2
  obtain ⟨j1, j2, j3, j4, j5⟩ := sub_pair f10 f11 f6 hde w1 w2
  obtain ⟨g1, g2, g3, g4⟩ := deposit_pair q3'.ok q4'.ok f7 j1 f1 j2 x1 x2
  rw [j4, j5, f8, f9] at g3 g4
  rw [f8, f9] at j3
  exact ⟨g1, g2, (k2.trans (.of_eq f2 f3 f4 f5)).trans g3, j3.trans g4⟩

theorem redelegate_pair (hp : PoolOk now p) (hq : PoolOk now q) (hm : MiningOk m) (h : SameStakes p q)
    (hmn : SameStake m n) {nd nd' od od' ne ne' oe oe' : Option Mining} (hdo : ∀ x, od = some x → MiningOk x)
    (heo : ∀ x, oe = some x → MiningOk x) (hN : BothSome nd ne) (hO : BothSome od oe)
    (h1 : p.changeDelegate now m nd od a = .ok (p', m', nd', od'))
    (h2 : q.changeDelegate now n ne oe a = .ok (q', n', ne', oe')) :
    OpPair p p' q q' m m' n n' nd nd' ne ne' ∧ DelPair p.cumulative q.cumulative od od' oe oe' := by
  rw [changeDelegate_ok] at h1 h2
  obtain ⟨r1, p1, x1, y1⟩ := h1
  obtain ⟨r2, q1, x2, y2⟩ := h2
  obtain ⟨k1, k2⟩ := refresh_pair hp.history hq.history hm hmn r1 r2
  obtain ⟨o1, -⟩ := withSub_same hp hdo x1
  obtain ⟨o2, -⟩ := withSub_same hq heo x2
  obtain ⟨j1, -, j3, j4, j5⟩ := sub_pair hp hq h hO x1 x2
  obtain ⟨g1, -, g3, -⟩ := add_pair o1.ok o2.ok j1 hN y1 y2
  rw [j4, j5] at g3
  exact ⟨⟨g1, k1, k2, g3⟩, j3⟩

theorem decrease_pair (h : SameStake m n) {c c' : SMap} (h1 : m.decreaseRewards a = .ok m') (h2 : n.decreaseRewards a = .ok n') :
    SameStake m' n' ∧ Fares c c' m m' n n' := by
  obtain ⟨u, i, rfl⟩ : ∃ u i, n = { m with unclaimed := u, index := i } := ⟨_, _, h⟩
  unfold Mining.decreaseRewards at h1 h2
  split at h1
  · rename_i h0
    rw [if_pos h0] at h2
    cases h1; cases h2
    exact ⟨rfl, .of_eq rfl rfl rfl rfl⟩
  · rename_i h0
    rw [if_neg h0] at h2
    simp only [res_bind_ok, ensure_ok, safeSub_ok, res_pure_ok] at h1 h2
    obtain ⟨-, -, _, ⟨-, rfl⟩, rfl⟩ := h1
    obtain ⟨-, -, _, ⟨-, rfl⟩, rfl⟩ := h2
    exact ⟨rfl, .of_eq rfl rfl rfl rfl⟩

/-- Every stake operation. -/
theorem StakeOp.pair {i : Ix} (hp : PoolOk now p) (hq : PoolOk now q) (hm : MiningOk m) (hd : ∀ x, d = some x → MiningOk x)
    (he : ∀ x, e = some x → MiningOk x) (h : SameStakes p q) (hmn : SameStake m n) (hde : BothSome d e)
    (h1 : StakeOp caps now p m d p' m' d' i) (h2 : StakeOp caps now q n e q' n' e' i) :
    OpPair p p' q q' m m' n n' d d' e e' := by
  cases i with
  | depositMining a l o dl => exact deposit_pair hp hq hm h hmn hde h1 h2
  | withdrawMining a o dl => exact withdraw_pair hp hq hm h hmn hde h1 h2
  | extendStake ol nl ts b a o dl => exact extend_pair hp hq hm hd he h hmn hde h1 h2
  | slash o n mu ex =>
    obtain ⟨h1, rfl, rfl⟩ := h1
    obtain ⟨h2, rfl, rfl⟩ := h2
    exact slash_pair hp hq hm h hmn h1 h2
  | _ => exact h1.elim

end

end Verif
