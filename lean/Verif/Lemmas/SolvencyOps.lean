import Verif.Lemmas.Effects
import Verif.Lemmas.Owed
import Verif.Lemmas.Decrease
import Verif.Spec.Solvency
/-!
Solvency of single operations on a pool and its minings: nobody is owed more afterwards, the pool's total keeps covering
the stakes, expirations stay covered.
-/

namespace Verif

open Spec

/-- What holds of every mining of an orderly pool with history `cum`. -/
structure Sound (now : Nat) (cum : SMap) (m : Mining) : Prop where
  ok : MiningOk m
  backed : total m.diffs ≤ m.share
  index : m.index ≤ indexBefore cum now
  ahead : ∀ e ∈ m.diffs, m.index ≤ indexBefore cum e.1

/-- A mining just brought up to date. -/
structure Current (now : Nat) (cum : SMap) (m : Mining) : Prop where
  ok : MiningOk m
  backed : total m.diffs ≤ m.share
  index : m.index = indexBefore cum now
  later : ∀ e ∈ m.diffs, midnight now < e.1

theorem now_lt_midnight (now : Nat) : now < midnight now + 86400 := by unfold midnight; omega

theorem midnight_le (now : Nat) : midnight now ≤ now := by unfold midnight; omega

theorem next_day {now e : Nat} (ha : e % 86400 = 0) (h : midnight now < e) : midnight now + 86400 ≤ e := by
  unfold midnight at *; omega

theorem Current.sound {now : Nat} {cum : SMap} (hc : History cum) {m : Mining} (h : Current now cum m) :
    Sound now cum m := by
  refine ⟨h.ok, h.backed, Nat.le_of_eq h.index, fun e he => ?_⟩
  rw [h.index]
  refine indexBefore_mono hc ?_
  have h1 := h.later e he
  have h2 := h.ok.aligned e he
  have := next_day h2 h1
  have := now_lt_midnight now
  omega

theorem Current.stake {now : Nat} {cum : SMap} {m : Mining} (h : Current now cum m) :
    earningOn m (midnight now) = m.share + m.stakeFromOthers := by
  unfold earningOn
  rw [dueBy_eq_zero h.later]; rfl

theorem earning_eq {m : Mining} (hb : total m.diffs ≤ m.share) (x : Nat) :
    (earningOn m x : Int) = weightOn m x + m.stakeFromOthers := by
  have := dueBy_le_total m.diffs x
  unfold earningOn weightOn
  omega

theorem refresh_current {now : Nat} {cum : SMap} (hc : History cum) {m m' : Mining} (hm : MiningOk m)
    (hb : total m.diffs ≤ m.share) (h : m.refreshRewards now cum = .ok m') :
    Current now cum m' ∧ owed m' cum ≤ owed m cum ∧ m'.stakeFromOthers = m.stakeFromOthers ∧
      m'.diffs = after m.diffs (midnight now) ∧ m'.share + dueBy m.diffs (midnight now) = m.share ∧
      ∀ x, midnight now ≤ x → earningOn m' x = earningOn m x := by
  obtain ⟨h1, -, h2, -, h4, h5⟩ := refresh_owed hc hm h
  obtain ⟨-, g2, g3⟩ := refresh_weight hc hm h
  rw [bod_eq_midnight] at *
  have ht := total_after m.diffs (midnight now)
  refine ⟨⟨⟨?_, ?_⟩, ?_, h2, ?_⟩, h1, h4, g2, g3, h5⟩
  · rw [g2]; exact after_sorted hm.sorted _
  · rw [g2]; exact fun e he => hm.aligned e (mem_after.mp he).1
  · rw [g2]; omega
  · rw [g2]; exact fun e he => (mem_after.mp he).2

/-- Owing is monotone in the stake on the days not yet consumed. -/
theorem owed_le_now {cum : SMap} (hc : History cum) {now : Nat} {m m' : Mining} (hi : m.index = indexBefore cum now)
    (hi' : m'.index = m.index) (hu : m.unclaimed = m'.unclaimed)
    (he : ∀ x, midnight now ≤ x → earningOn m' x ≤ earningOn m x) : owed m' cum ≤ owed m cum := by
  unfold owed
  rw [hu, pending_split hc m (now := now) (Nat.le_of_eq hi),
    pending_split hc m' (now := now) (Nat.le_of_eq (hi'.trans hi)),
    entitlement_consumed hc (Nat.le_of_eq hi.symm), entitlement_consumed hc (Nat.le_of_eq (hi'.trans hi).symm)]
  refine Nat.add_le_add_left (Nat.add_le_add_left (earned_le fun e hem => he _ ?_) _) _
  have := (List.mem_filter.mp hem).2
  have h2 := midnight_le now
  simp at this; omega

/-- What an operation did to an optional delegate. -/
def DelOk (now : Nat) (cum : SMap) (δ : Int) : Option Mining → Option Mining → Prop
  | none, none => True
  | some x, some x' => owed x' cum ≤ owed x cum ∧ Current now cum x' ∧ SameMining x x' ∧
      ∀ u, midnight now ≤ u → (earningOn x' u : Int) = earningOn x u + δ
  | _, _ => False

/-- Conditions on a delegate. -/
def DelIs (d : Option Mining) : Prop := ∀ x, d = some x → MiningOk x ∧ total x.diffs ≤ x.share

theorem withSub_sound {now a : Nat} {p p' : Pool} {d d' : Option Mining} (hp : PoolOk now p)
    (hd : DelIs d) (h : p.withDelegate d (Pool.delegateSub now a) = .ok (p', d')) :
    Quiet now p p' ∧ (∀ x, totalOn p' x = totalOn p x - if d.isSome = true then (a : Int) else 0) ∧
      DelOk now p.cumulative (-a) d d' := by
  have hd' : ∀ x, d = some x → MiningOk x := fun x hx => (hd x hx).1
  obtain ⟨q1, q2⟩ := withSub_same hp hd' h
  obtain ⟨t1, -⟩ := withSub_effect hp hd' h
  refine ⟨q1, t1, ?_⟩
  cases d with
  | none => rw [withDelegate_none] at h; rw [h.2]; trivial
  | some x =>
    rw [withDelegate_some] at h
    obtain ⟨x', h, rfl⟩ := h
    obtain ⟨hx, hb⟩ := hd x rfl
    obtain ⟨-, -, -, h1, -⟩ := delegateSub_owed hp.history hx h
    rw [delegateSub_ok] at h
    obtain ⟨ha, _, h, rfl⟩ := h
    obtain ⟨c1, -, c3, c4, c5, c6⟩ := refresh_current (m := { x with stakeFromOthers := x.stakeFromOthers - a })
      hp.history ⟨hx.1, hx.2⟩ hb h
    refine ⟨h1, c1, q2.1, fun u hu => ?_⟩
    rw [c6 u hu, earning_eq (m := { x with stakeFromOthers := x.stakeFromOthers - a }) hb, earning_eq hb]
    simp only [weightOn]; omega

theorem withAdd_sound {now a : Nat} {p p' : Pool} {d d' : Option Mining} (hp : PoolOk now p)
    (hd : DelIs d) (hi : ∀ x, d = some x → lastIndex 0 p.cumulative ≤ x.index)
    (h : p.withDelegate d (Pool.delegateAdd now a) = .ok (p', d')) :
    Quiet now p p' ∧ (∀ x, totalOn p' x = totalOn p x + if d.isSome = true then (a : Int) else 0) ∧
      DelOk now p.cumulative a d d' := by
  have hd' : ∀ x, d = some x → MiningOk x := fun x hx => (hd x hx).1
  obtain ⟨q1, q2⟩ := withAdd_same hp hd' h
  obtain ⟨t1, -⟩ := withAdd_effect hp hd' h
  refine ⟨q1, t1, ?_⟩
  cases d with
  | none => rw [withDelegate_none] at h; rw [h.2]; trivial
  | some x =>
    rw [withDelegate_some] at h
    obtain ⟨x', h, rfl⟩ := h
    obtain ⟨hx, hb⟩ := hd x rfl
    obtain ⟨-, -, -, h1, -⟩ := delegateAdd_owed hp.history hx h
    have hz := hi x rfl
    rw [delegateAdd_ok] at h
    obtain ⟨ha, _, h, rfl⟩ := h
    obtain ⟨c1, -, c3, c4, c5, c6⟩ := refresh_current (m := { x with stakeFromOthers := x.stakeFromOthers + a })
      hp.history ⟨hx.1, hx.2⟩ hb h
    refine ⟨?_, c1, q2.1, fun u hu => ?_⟩
    · rw [Nat.sub_eq_zero_of_le hz] at h1; exact h1
    · rw [c6 u hu, earning_eq (m := { x with stakeFromOthers := x.stakeFromOthers + a }) hb, earning_eq hb]
      simp only [weightOn]; omega

/-- What an operation did to the pool, the acting mining and the delegate. -/
structure StakeSound (now : Nat) (p p' : Pool) (m m' : Mining) (d d' : Option Mining) : Prop where
  owed : owed m' p.cumulative ≤ owed m p.cumulative
  current : Current now p.cumulative m'
  delegate : ∃ δ, DelOk now p.cumulative δ d d' ∧ ∀ x, midnight now ≤ x →
    totalOn p x + ((earningOn m' x : Int) - earningOn m x) + (if d.isSome = true then δ else 0) ≤ totalOn p' x

theorem deposit_sound {caps : Caps} {now : Nat} {p p' : Pool} {m m' : Mining} {a : Nat} {per : LockupPeriod}
    {d d' : Option Mining} (hp : PoolOk now p) (hm : MiningOk m) (hb : total m.diffs ≤ m.share)
    (hd : DelIs d) (hi : ∀ x, d = some x → lastIndex 0 p.cumulative ≤ x.index)
    (hs : Settled p.cumulative now)
    (hr : ∀ k n, terms per = some (k, n) →
      HasRoom caps.mining (laterThan m.diffs (midnight now)) (midnight now + 86400 * n))
    (h : p.deposit caps now m a per d = .ok (p', m', d')) :
    StakeSound now p p' m m' d d' := by
  obtain ⟨m1, e, h1, h2, -, -, -, -, -, -, rfl, h9⟩ := deposit_ok (refresh_sorted hp hm) h
  obtain ⟨c1, c2, c3, c4, c5, c6⟩ := refresh_current hp.history hm hb h1
  obtain ⟨n, g1, rfl, g3, g4⟩ := terms_ok h2
  have hroom := hr _ _ g1
  rw [laterThan_eq, hasRoom_iff, ← c4] at hroom
  have hal : (midnight now + 86400 * n) % 86400 = 0 := by unfold midnight; omega
  have hq : Quiet now p _ := Quiet.mk' (t := p.totalShare + a * per.multiplier) hp
    (addAt_sorted hp.sorted caps.pool (midnight now + 86400 * n) (a * per.multiplier - a)) (addAt_aligned hp.aligned hal)
  obtain ⟨q1, q2, q3⟩ := withAdd_sound hq.ok hd hi h9
  have hak : a ≤ a * per.multiplier := Nat.le_mul_of_pos_right a g3
  have hb' : total (addAt caps.mining m1.diffs (midnight now + 86400 * n) (a * per.multiplier - a)) ≤
      m1.share + a * per.multiplier := by
    rw [total_addAt c1.ok.sorted hroom]
    have := c1.backed; omega
  refine ⟨?_, ⟨⟨addAt_sorted c1.ok.sorted .., addAt_aligned c1.ok.aligned hal⟩, hb', c1.index, ?_⟩, a, q3, fun x hx => ?_⟩
  · refine Nat.le_trans ?_ c2
    have hlast : lastIndex 0 p.cumulative ≤ m1.index := by rw [c1.index, settled_index hs]; exact Nat.le_refl _
    rw [owed_current hp.history hlast, owed_current hp.history (by exact hlast)]
    exact Nat.le_refl _
  · intro x hx
    rcases insert_mem x hx with rfl | hx
    · show midnight now < midnight now + 86400 * n
      omega
    · exact c1.later x hx
  · rw [q2 x]
    have h3 := dueBy_addAt_le hp.sorted caps.pool (midnight now + 86400 * n) (a * per.multiplier - a) x
    rw [← c6 x hx]
    rw [earning_eq c1.backed, earning_eq hb']
    have h4 := addAt_weight (a := a) c1.ok.sorted hroom g3 m1.share x
    have h5 : ((p.totalShare + a * per.multiplier : Nat) : Int) -
        (dueBy (addAt caps.pool p.diffs (midnight now + 86400 * n) (a * per.multiplier - a)) x : Nat) ≥
        (p.totalShare : Int) - dueBy p.diffs x + stakeWeight a per.multiplier (midnight now + 86400 * n) x := by
      unfold stakeWeight
      split at h3
      · rw [if_neg (by omega)]; omega
      · rw [if_pos (by omega)]; push_cast at h3 ⊢; omega
    simp only [weightOn, totalOn] at *
    omega

theorem withdraw_sound {now : Nat} {p p' : Pool} {m m' : Mining} {a : Nat} {d d' : Option Mining} (hp : PoolOk now p)
    (hm : MiningOk m) (hb : total m.diffs ≤ m.share) (hd : DelIs d) (ha : Unlocked a m)
    (h : p.withdraw now m a d = .ok (p', m', d')) : StakeSound now p p' m m' d d' := by
  obtain ⟨m1, h1, h2, h3, rfl, h5⟩ := withdraw_ok hp.sorted h
  obtain ⟨c1, c2, c3, c4, c5, c6⟩ := refresh_current hp.history hm hb h1
  have hq : Quiet now p _ := Quiet.mk' (t := p.totalShare - a - dueBy p.diffs (bod now)) hp
    (after_sorted hp.sorted (bod now)) (after_aligned hp.aligned)
  obtain ⟨q1, q2, q3⟩ := withSub_sound hq.ok hd h5
  unfold Unlocked at ha
  have ht := total_after m.diffs (midnight now)
  rw [← c4] at ht
  have hb' : total m1.diffs ≤ m1.share - a := by omega
  have hw : ∀ x, midnight now ≤ x → (earningOn { m1 with share := m1.share - a } x : Int) = earningOn m x - a := by
    intro x hx
    rw [← c6 x hx, earning_eq (m := { m1 with share := m1.share - a }) hb', earning_eq c1.backed]
    simp only [weightOn]; omega
  refine ⟨?_, ⟨⟨c1.ok.1, c1.ok.2⟩, hb', c1.index, c1.later⟩, -a, q3, fun x hx => ?_⟩
  · refine Nat.le_trans (owed_le_now hp.history (now := now) c1.index rfl rfl fun x hx => ?_) c2
    have := hw x hx; rw [← c6 x hx] at this; omega
  · rw [q2 x, hw x hx]
    have h6 := dueBy_after p.diffs (b := bod now) (d := x) (by rw [bod_eq_midnight]; exact hx)
    simp only [totalOn]
    split <;> omega

theorem slash_sound {now : Nat} {p p' : Pool} {m m' : Mining} {n mu : Nat} {ex : Option Nat} (hp : PoolOk now p)
    (hm : MiningOk m) (hb : total m.diffs ≤ m.share) (ha : Unlocked (if ex = none then mu else n) m)
    (h : p.slash now m n mu ex = .ok (p', m')) : StakeSound now p p' m m' none none := by
  obtain ⟨t1, t2, -⟩ := slash_effect hp hm h
  obtain ⟨m1, h1, h2, h3, h4⟩ := slash_ok hp.sorted (refresh_sorted hp hm) h
  obtain ⟨c1, c2, c3, c4, c5, c6⟩ := refresh_current hp.history hm hb h1
  unfold Unlocked at ha
  have ht := total_after m.diffs (midnight now)
  rw [← c4] at ht
  have key : Current now p.cumulative m' ∧ m'.index = m1.index ∧ m1.unclaimed = m'.unclaimed ∧
      m'.stakeFromOthers = m.stakeFromOthers := by
    rcases h4 with ⟨rfl, rfl, rfl⟩ | ⟨ts, om, op, rfl, hnm, g1, g2, g3, g4, rfl, rfl⟩
    · rw [if_pos rfl] at ha
      exact ⟨⟨⟨c1.ok.1, c1.ok.2⟩, by show total m1.diffs ≤ m1.share - mu; omega, c1.index, c1.later⟩, rfl, rfl, c3⟩
    · rw [if_neg (by simp)] at ha
      have hmem := SMap.get_some_mem g1
      have h6 := SMap.total_put c1.ok.sorted (bod ts) (om - (mu - n))
      rw [g1] at h6
      simp only [Option.getD_some] at h6
      refine ⟨⟨⟨SMap.put_sorted c1.ok.sorted .., put_aligned c1.ok.aligned g1⟩, ?_, c1.index, ?_⟩, rfl, rfl, c3⟩
      · show total (SMap.put m1.diffs (bod ts) (om - (mu - n))) ≤ m1.share - mu
        omega
      · intro e he
        rcases SMap.mem_put he with rfl | he
        · exact c1.later (bod ts, om) hmem
        · exact c1.later e he
  obtain ⟨k1, k2, k3, k4⟩ := key
  have hw : ∀ x, midnight now ≤ x → (earningOn m' x : Int) = earningOn m x - slashWeight n mu ex x := by
    intro x hx
    rw [earning_eq k1.backed, earning_eq hb, t2 x hx, k4]; omega
  have hpos : ∀ x, 0 ≤ slashWeight n mu ex x := by
    intro x; unfold slashWeight; split
    · omega
    · split <;> omega
  refine ⟨?_, k1, 0, trivial, fun x hx => ?_⟩
  · refine Nat.le_trans (owed_le_now hp.history (now := now) c1.index k2 k3 fun x hx => ?_) c2
    have := hw x hx; have := hpos x; rw [c6 x hx]; omega
  · rw [t1 x hx, hw x hx]; simp; omega

theorem extend_sound {caps : Caps} {now : Nat} {p p' : Pool} {m m' : Mining} {op np : LockupPeriod} {ts b a : Nat}
    {d d' : Option Mining} (hp : PoolOk now p) (hm : MiningOk m) (hb : total m.diffs ≤ m.share) (hd : DelIs d)
    (hs : Settled p.cumulative now) (ha : Unlocked b m)
    (hr : ∀ k n, terms np = some (k, n) →
      HasRoom caps.mining (laterThan m.diffs (midnight now)) (midnight now + 86400 * n))
    (hx : op = .flex ∨ ∀ k n, terms op = some (k, n) → midnight ts + 86400 * n ≤ now)
    (h : p.extend caps now m op np ts b a d = .ok (p', m', d')) : StakeSound now p p' m m' d d' := by
  obtain ⟨m1, oe, p2, m2, p3, d3, h1, ho, h3, -, h5, h6⟩ := extend_ok (refresh_sorted hp hm) h
  have hoe : ¬ now < oe := by
    rcases ho with ⟨-, rfl⟩ | ⟨hne, ho⟩
    · omega
    · obtain ⟨n, g1, rfl, -, -⟩ := terms_ok ho
      rcases hx with hx | hx
      · exact absurd hx hne
      · have := hx _ _ g1; omega
  rcases h3 with ⟨h3, -⟩ | ⟨-, h7, h8, rfl, rfl⟩
  · exact absurd h3 hoe
  obtain ⟨c1, c2, c3, c4, c5, c6⟩ := refresh_current hp.history hm hb h1
  unfold Unlocked at ha
  have ht := total_after m.diffs (midnight now)
  rw [← c4] at ht
  have hb2 : total m1.diffs ≤ m1.share - b := by omega
  have hq : Quiet now p { p with totalShare := p.totalShare - b } :=
    Quiet.mk' (t := p.totalShare - b) hp hp.sorted hp.aligned
  obtain ⟨q1, q2, q3⟩ := withSub_sound hq.ok hd h5
  have hcum : p3.cumulative = p.cumulative := q1.cumulative
  have hd3 : DelIs d3 ∧ ∀ x, d3 = some x → lastIndex 0 p3.cumulative ≤ x.index := by
    cases d with
    | none => cases d3 with
      | none => exact ⟨fun _ h => (nomatch h), fun _ h => (nomatch h)⟩
      | some _ => exact q3.elim
    | some y => cases d3 with
      | none => exact q3.elim
      | some y' =>
        refine ⟨fun x hx => ?_, fun x hx => ?_⟩ <;> cases hx
        · exact ⟨q3.2.1.ok, q3.2.1.backed⟩
        · have hyi : y'.index = indexBefore p.cumulative now := q3.2.1.index
          rw [hcum, hyi, settled_index hs]; exact Nat.le_refl _
  have hroom : ∀ k n, terms np = some (k, n) → HasRoom caps.mining (laterThan m1.diffs (midnight now))
      (midnight now + 86400 * n) := by
    intro k n hk
    have := hr k n hk
    rw [laterThan_eq] at this ⊢
    rw [c4, after_after _ (Nat.le_refl _)]; exact this
  have hdep := deposit_sound (m := { m1 with share := m1.share - b }) q1.ok ⟨c1.ok.1, c1.ok.2⟩ hb2 hd3.1 hd3.2
    (by rw [hcum]; exact hs) hroom h6
  have hw : ∀ x, midnight now ≤ x → (earningOn { m1 with share := m1.share - b } x : Int) = earningOn m x - b := by
    intro x hx
    rw [← c6 x hx, earning_eq (m := { m1 with share := m1.share - b }) hb2, earning_eq c1.backed]
    simp only [weightOn]; omega
  have hod : owed { m1 with share := m1.share - b } p.cumulative ≤ owed m p.cumulative := by
    refine Nat.le_trans (owed_le_now hp.history (now := now) c1.index rfl rfl fun x hx => ?_) c2
    have := hw x hx; rw [← c6 x hx] at this; omega
  obtain ⟨r1, r2, δ, r3, r4⟩ := hdep
  rw [hcum] at r1 r2 r3
  refine ⟨Nat.le_trans r1 hod, r2, δ - b, ?_, fun x hx => ?_⟩
  · cases d with
    | none => cases d3 with
      | none => cases d' with
        | none => trivial
        | some _ => exact r3.elim
      | some _ => exact q3.elim
    | some y => cases d3 with
      | none => exact q3.elim
      | some y' => cases d' with
        | none => exact r3.elim
        | some y2 =>
          refine ⟨Nat.le_trans r3.1 q3.1, r3.2.1, q3.2.2.1.trans r3.2.2.1, fun u hu => ?_⟩
          rw [r3.2.2.2 u hu, q3.2.2.2 u hu]; omega
  · have e1 := r4 x hx
    rw [q2 x, hw x hx] at e1
    have e2 : d3.isSome = d.isSome := by
      cases d <;> cases d3 <;> first | rfl | exact q3.elim
    rw [e2] at e1
    simp only [totalOn] at e1 ⊢
    split at e1 <;> simp_all <;> omega

/-- What a change of delegate did. -/
structure RedelegateSound (now : Nat) (p p' : Pool) (m m' : Mining) (od od' nd nd' : Option Mining) : Prop where
  owed : owed m' p.cumulative ≤ owed m p.cumulative
  current : Current now p.cumulative m'
  delegates : ∃ δ δ', DelOk now p.cumulative δ od od' ∧ DelOk now p.cumulative δ' nd nd' ∧ ∀ x, midnight now ≤ x →
    totalOn p x + ((earningOn m' x : Int) - earningOn m x) + (if od.isSome = true then δ else 0) +
      (if nd.isSome = true then δ' else 0) ≤ totalOn p' x

theorem changeDelegate_sound {now : Nat} {p p' : Pool} {m m' : Mining} {nd od nd' od' : Option Mining} {a : Nat}
    (hp : PoolOk now p) (hm : MiningOk m) (hb : total m.diffs ≤ m.share) (hn : DelIs nd) (ho : DelIs od)
    (hi : ∀ x, nd = some x → lastIndex 0 p.cumulative ≤ x.index)
    (h : p.changeDelegate now m nd od a = .ok (p', m', nd', od')) : RedelegateSound now p p' m m' od od' nd nd' := by
  rw [changeDelegate_ok] at h
  obtain ⟨h1, p1, h2, h3⟩ := h
  obtain ⟨q1, q2, q3⟩ := withSub_sound hp ho h2
  obtain ⟨r1, r2, r3⟩ := withAdd_sound q1.ok hn (by rw [q1.cumulative]; exact hi) h3
  obtain ⟨c1, c2, c3, c4, c5, c6⟩ := refresh_current hp.history hm hb h1
  rw [q1.cumulative] at r3
  refine ⟨c2, c1, -a, a, q3, r3, fun x hx => ?_⟩
  rw [r2 x, q2 x, c6 x hx]
  split <;> split <;> omega

theorem decreaseLoop_dueBy (n : Nat) (l : List (Nat × Nat)) (x : Nat) :
    dueBy l x ≤ dueBy (Mining.decreaseLoop n l) x + n := by
  induction l generalizing n with
  | nil => simp
  | cons a l ih =>
    obtain ⟨d, v⟩ := a
    unfold Mining.decreaseLoop
    split
    · rw [dueBy_cons, dueBy_cons]; split <;> simp <;> omega
    · have := ih (n - v)
      rw [dueBy_cons, dueBy_cons]; split <;> simp <;> omega

theorem dueBy_reverse (l : List (Nat × Nat)) (x : Nat) : dueBy l.reverse x = dueBy l x := by
  unfold dueBy
  rw [List.filter_reverse, List.map_reverse, List.sum_reverse]

/-- A penalty lowers the stake of every day, past or future. -/
theorem decrease_earning {m m' : Mining} {n : Nat} (h : m.decreaseRewards n = .ok m') :
    (∀ x, earningOn m' x ≤ earningOn m x) ∧ (total m.diffs ≤ m.share → total m'.diffs ≤ m'.share) ∧
      m'.index = m.index ∧ m'.unclaimed = m.unclaimed ∧ m'.share ≤ m.share ∧
      m'.diffs.map (·.1) = m.diffs.map (·.1) := by
  rw [decreaseRewards_ok] at h
  rcases h with ⟨_, rfl⟩ | ⟨_, hn, rfl⟩
  · exact ⟨fun x => Nat.le_refl _, id, rfl, rfl, Nat.le_refl _, rfl⟩
  · have hp := penalty_ok n m.diffs
    refine ⟨fun x => ?_, fun hb => ?_, rfl, rfl, Nat.sub_le _ _, hp.same_dates⟩
    · have h1 := decreaseLoop_dueBy n m.diffs.reverse x
      rw [dueBy_reverse] at h1
      simp only [earningOn, dueBy_reverse]
      omega
    · have := hp.amount
      simp only at this ⊢
      omega

end Verif
