import Verif.Spec.Terms
import Verif.Lemmas.WfLemmas
/-!
Effect of the stake operations in terms of stake on a day, for single methods and for whole worlds.
-/

namespace Verif

open Spec

variable {env : Env}

theorem terms_ok {per : LockupPeriod} {now e : Nat} (h : per.endTimestamp now = .ok e) :
    ∃ n, terms per = some (per.multiplier, n) ∧ e = midnight now + 86400 * n ∧ 1 ≤ per.multiplier ∧ 0 < n := by
  cases per <;> simp [LockupPeriod.endTimestamp, rawAdd64, bod_eq_midnight, DAY] at h <;> (try split at h) <;>
    simp_all [terms, LockupPeriod.multiplier]

theorem laterThan_eq (l : SMap) (d : Nat) : laterThan l d = after l d := rfl

theorem hasRoom_iff {cap : Nat} {l : SMap} {e : Nat} : HasRoom cap l e ↔ Room cap l e := by
  unfold HasRoom Room
  rw [SMap.contains_iff]

theorem refresh_weight {now : Nat} {cum : SMap} (hc : History cum) {m m' : Mining} (hm : MiningOk m)
    (h : m.refreshRewards now cum = .ok m') :
    (∀ d, bod now ≤ d → weightOn m' d = weightOn m d) ∧ m'.diffs = after m.diffs (bod now) ∧
      m'.share + dueBy m.diffs (bod now) = m.share := by
  obtain ⟨c, rfl, h1, _⟩ := refresh_ok hc hm.sorted h
  refine ⟨fun d hd => ?_, rfl, by simp only; omega⟩
  have := dueBy_after m.diffs hd
  simp only [weightOn]
  omega

/-- What happened to an optional delegate: `stakeFromOthers` changed by `δ`, its own stake did not. -/
def DelegateMoved (now : Nat) (δ : Int) : Option Mining → Option Mining → Prop
  | none, none => True
  | some d, some d' => (d'.stakeFromOthers : Int) = d.stakeFromOthers + δ ∧ SameMining d d' ∧
      ∀ x, bod now ≤ x → weightOn d' x = weightOn d x
  | _, _ => False

theorem withAdd_effect {now a : Nat} {p p' : Pool} {d d' : Option Mining} (hp : PoolOk now p)
    (hd : ∀ x, d = some x → MiningOk x) (h : p.withDelegate d (Pool.delegateAdd now a) = .ok (p', d')) :
    (∀ x, totalOn p' x = totalOn p x + if d.isSome = true then (a : Int) else 0) ∧ DelegateMoved now a d d' := by
  cases d with
  | none =>
    rw [withDelegate_none] at h
    obtain ⟨rfl, rfl⟩ := h
    exact ⟨fun x => by simp, trivial⟩
  | some y =>
    rw [withDelegate_some] at h
    obtain ⟨y', h, rfl⟩ := h
    rw [delegateAdd_ok] at h
    obtain ⟨_, _, h3, rfl⟩ := h
    have hy := hd y rfl
    have h4 := refresh_same (m := { y with stakeFromOthers := y.stakeFromOthers + a }) hp.history ⟨hy.1, hy.2⟩ h3
    have h5 := refresh_weight (m := { y with stakeFromOthers := y.stakeFromOthers + a }) hp.history ⟨hy.1, hy.2⟩ h3
    refine ⟨fun x => ?_, ?_, ⟨h4.1.1, h4.1.2, h4.1.3, h4.1.4, h4.1.5⟩, h5.1⟩
    · simp only [totalOn, Option.isSome_some, if_true]; omega
    · rw [h4.2.2]; simp

theorem withSub_effect {now a : Nat} {p p' : Pool} {d d' : Option Mining} (hp : PoolOk now p)
    (hd : ∀ x, d = some x → MiningOk x) (h : p.withDelegate d (Pool.delegateSub now a) = .ok (p', d')) :
    (∀ x, totalOn p' x = totalOn p x - if d.isSome = true then (a : Int) else 0) ∧ DelegateMoved now (-a) d d' := by
  cases d with
  | none =>
    rw [withDelegate_none] at h
    obtain ⟨rfl, rfl⟩ := h
    exact ⟨fun x => by simp, trivial⟩
  | some y =>
    rw [withDelegate_some] at h
    obtain ⟨y', h, rfl⟩ := h
    rw [delegateSub_ok] at h
    obtain ⟨h1, h2, h3, rfl⟩ := h
    have hy := hd y rfl
    have h4 := refresh_same (m := { y with stakeFromOthers := y.stakeFromOthers - a }) hp.history ⟨hy.1, hy.2⟩ h3
    have h5 := refresh_weight (m := { y with stakeFromOthers := y.stakeFromOthers - a }) hp.history ⟨hy.1, hy.2⟩ h3
    refine ⟨fun x => ?_, ?_, ⟨h4.1.1, h4.1.2, h4.1.3, h4.1.4, h4.1.5⟩, h5.1⟩
    · simp only [totalOn, Option.isSome_some, if_true]; omega
    · rw [h4.2.2]; simp only; omega

theorem addAt_weight {D : SMap} (hD : Sorted D) {cap e a k : Nat} (hr : Room cap D e) (hk : 1 ≤ k) (s x : Nat) :
    ((s + a * k : Nat) : Int) - (dueBy (addAt cap D e (a * k - a)) x : Nat) = (s : Int) - dueBy D x + stakeWeight a k e x := by
  rw [dueBy_addAt hD hr]
  have : a ≤ a * k := Nat.le_mul_of_pos_right a hk
  unfold stakeWeight
  by_cases h : e ≤ x
  · rw [if_pos h, if_neg (by omega)]; omega
  · rw [if_neg h, if_pos (by omega)]
    push_cast; omega

theorem deposit_effect {caps : Caps} {now : Nat} {p p' : Pool} {m m' : Mining} {a : Nat} {per : LockupPeriod}
    {d d' : Option Mining} (hp : PoolOk now p) (hm : MiningOk m) (hd : ∀ x, d = some x → MiningOk x)
    (h : p.deposit caps now m a per d = .ok (p', m', d')) :
    ∃ k n, terms per = some (k, n) ∧ per.endTimestamp now = .ok (midnight now + 86400 * n) ∧
      (HasRoom caps.pool p.diffs (midnight now + 86400 * n) → ∀ x,
        totalOn p' x = totalOn p x + stakeWeight a k (midnight now + 86400 * n) x + if d.isSome = true then (a : Int) else 0) ∧
      (HasRoom caps.mining (laterThan m.diffs (midnight now)) (midnight now + 86400 * n) → ∀ x, midnight now ≤ x →
        weightOn m' x = weightOn m x + stakeWeight a k (midnight now + 86400 * n) x) ∧
      DelegateMoved now a d d' := by
  obtain ⟨m1, e, h1, h2, -, -, -, -, -, -, rfl, h9⟩ := deposit_ok (refresh_sorted hp hm) h
  obtain ⟨s1, o1, f1⟩ := refresh_same hp.history hm h1
  have hq : Quiet now p _ := Quiet.mk' (t := p.totalShare + a * per.multiplier) hp
    (addAt_sorted hp.sorted caps.pool e (a * per.multiplier - a)) (addAt_aligned hp.aligned (end_aligned h2))
  obtain ⟨t1, t2⟩ := withAdd_effect hq.ok hd h9
  obtain ⟨r1, r2, r3⟩ := refresh_weight hp.history hm h1
  obtain ⟨n, g1, rfl, g3, _⟩ := terms_ok h2
  refine ⟨per.multiplier, n, g1, h2, fun hr x => ?_, fun hr x hx => ?_, t2⟩
  · rw [t1 x]
    simp only [totalOn]
    rw [addAt_weight hp.sorted (hasRoom_iff.mp hr) g3]
  · rw [← bod_eq_midnight] at hx
    rw [← r1 x hx]
    simp only [weightOn]
    rw [addAt_weight o1.sorted ?_ g3]
    rw [r2, ← laterThan_eq, ← hasRoom_iff, bod_eq_midnight]; exact hr

theorem withdraw_effect {now : Nat} {p p' : Pool} {m m' : Mining} {a : Nat}
    {d d' : Option Mining} (hp : PoolOk now p) (hm : MiningOk m) (hd : ∀ x, d = some x → MiningOk x)
    (h : p.withdraw now m a d = .ok (p', m', d')) :
    (∀ x, midnight now ≤ x → totalOn p' x = totalOn p x - a - if d.isSome = true then (a : Int) else 0) ∧
    (∀ x, midnight now ≤ x → weightOn m' x = weightOn m x - a) ∧
    laterThan m'.diffs (midnight now) = laterThan m.diffs (midnight now) ∧
    laterThan p'.diffs (midnight now) = laterThan p.diffs (midnight now) ∧ DelegateMoved now (-a) d d' := by
  obtain ⟨m1, h1, h2, h3, rfl, h5⟩ := withdraw_ok hp.sorted h
  have hq : Quiet now p _ := Quiet.mk' (t := p.totalShare - a - dueBy p.diffs (bod now)) hp
    (after_sorted hp.sorted (bod now)) (after_aligned hp.aligned)
  obtain ⟨t1, t2⟩ := withSub_effect hq.ok hd h5
  obtain ⟨r1, r2, r3⟩ := refresh_weight hp.history hm h1
  have hdiff : p'.diffs = after p.diffs (bod now) := by
    cases d with
    | none => rw [withDelegate_none] at h5; rw [h5.1]
    | some y =>
      rw [withDelegate_some] at h5
      obtain ⟨y', h5, -⟩ := h5
      rw [delegateSub_ok] at h5
      rw [h5.2.2.2]
  refine ⟨fun x hx => ?_, fun x hx => ?_, ?_, ?_, t2⟩
  · rw [t1 x]
    rw [← bod_eq_midnight] at hx
    have := dueBy_after p.diffs hx
    simp only [totalOn]
    omega
  · rw [← bod_eq_midnight] at hx
    rw [← r1 x hx]
    simp only [weightOn]; omega
  · rw [laterThan_eq, laterThan_eq, ← bod_eq_midnight, r2, after_after _ (Nat.le_refl _)]
  · rw [laterThan_eq, laterThan_eq, ← bod_eq_midnight, hdiff, after_after _ (Nat.le_refl _)]

theorem put_weight {D : SMap} (hD : Sorted D) {e old : Nat} (hg : D.get e = some old) {w n : Nat} (hn : n ≤ w)
    (hold : w - n ≤ old) {s : Nat} (hs : w ≤ s) (x : Nat) :
    ((s - w : Nat) : Int) - (dueBy (D.put e (old - (w - n))) x : Nat) =
      (s : Int) - dueBy D x - (if x < e then (w : Int) else n) := by
  have := SMap.dueBy_put hD e (old - (w - n)) x
  rw [hg] at this
  simp only [Option.getD_some] at this
  by_cases h : e ≤ x
  · rw [if_pos h, if_pos h] at this; rw [if_neg (by omega)]; omega
  · rw [if_neg h, if_neg h] at this; rw [if_pos (by omega)]; omega

theorem slash_effect {now : Nat} {p p' : Pool} {m m' : Mining} {n mu : Nat} {ex : Option Nat}
    (hp : PoolOk now p) (hm : MiningOk m) (h : p.slash now m n mu ex = .ok (p', m')) :
    (∀ x, midnight now ≤ x → totalOn p' x = totalOn p x -
      slashWeight n mu ex x) ∧
    (∀ x, midnight now ≤ x → weightOn m' x = weightOn m x -
      slashWeight n mu ex x) ∧
    (∀ ts, ex = some ts → n ≤ mu ∧ midnight now < midnight ts ∧ (∃ v, (midnight ts, v) ∈ m.diffs ∧ mu - n ≤ v) ∧
      ∃ v, (midnight ts, v) ∈ p.diffs ∧ mu - n ≤ v) := by
  obtain ⟨m1, h1, h2, h3, h4⟩ := slash_ok hp.sorted (refresh_sorted hp hm) h
  obtain ⟨s1, o1, f1⟩ := refresh_same hp.history hm h1
  obtain ⟨r1, r2, r3⟩ := refresh_weight hp.history hm h1
  rw [← bod_eq_midnight]
  rcases h4 with ⟨rfl, rfl, rfl⟩ | ⟨ts, om, op, rfl, hnm, g1, g2, g3, g4, rfl, rfl⟩
  · refine ⟨fun x hx => ?_, fun x hx => ?_, by simp⟩
    · have := dueBy_after p.diffs hx
      simp only [totalOn, slashWeight]; omega
    · rw [← r1 x hx]; simp only [weightOn, slashWeight]; omega
  · refine ⟨fun x hx => ?_, fun x hx => ?_, ?_⟩
    · have := dueBy_after p.diffs hx
      simp only [totalOn, slashWeight]
      have h6 := put_weight (after_sorted hp.sorted (bod now)) g2 hnm g4 (s := p.totalShare - dueBy p.diffs (bod now))
        (by omega) x
      have h7 : p.totalShare - mu - dueBy p.diffs (bod now) = p.totalShare - dueBy p.diffs (bod now) - mu := by omega
      rw [h7, h6, ← bod_eq_midnight]
      omega
    · rw [← r1 x hx]
      simp only [weightOn, slashWeight]
      rw [put_weight o1.sorted g1 hnm g3 h2 x, ← bod_eq_midnight]
    · intro ts' he
      cases he
      rw [← bod_eq_midnight]
      have k1 := SMap.get_some_mem g1
      have k2 := SMap.get_some_mem g2
      rw [r2] at k1
      refine ⟨hnm, (mem_after.mp k1).2, ⟨om, (mem_after.mp k1).1, g3⟩, op, (mem_after.mp k2).1, g4⟩


theorem DelegateMoved.trans {now : Nat} {i j : Int} {a b c : Option Mining} (h : DelegateMoved now i a b)
    (h' : DelegateMoved now j b c) : DelegateMoved now (i + j) a c := by
  cases a <;> cases b <;> cases c <;> simp_all [DelegateMoved]
  exact ⟨by omega, h.2.1.trans h'.2.1⟩

theorem stakeWeight_one (a e x : Nat) : stakeWeight a 1 e x = a := by
  unfold stakeWeight; split <;> simp

theorem set_keys (D : SMap) (k v : Nat) : List.map (·.1) (SMap.set D k v) = List.map (·.1) D := by
  induction D with
  | nil => rfl
  | cons y D ih =>
    obtain ⟨k', v'⟩ := y
    unfold SMap.set
    split
    · simp_all
    · simp [ih]

theorem extend_effect {caps : Caps} {now : Nat} {p p' : Pool} {m m' : Mining} {op np : LockupPeriod} {ts b a : Nat}
    {d d' : Option Mining} (hp : PoolOk now p) (hm : MiningOk m) (hd : ∀ x, d = some x → MiningOk x)
    (h : p.extend caps now m op np ts b a d = .ok (p', m', d')) :
    ∃ k n k' n', terms op = some (k, n) ∧ terms np = some (k', n') ∧
      (HasRoom caps.pool p.diffs (midnight now + 86400 * n') → ∀ x, midnight now ≤ x →
        (x < midnight ts + 86400 * n ∨ midnight ts + 86400 * n ≤ now ∨ op = .flex → totalOn p' x = totalOn p x -
          stakeWeight b k (midnight ts + 86400 * n) x + stakeWeight (b + a) k' (midnight now + 86400 * n') x +
          if d.isSome = true then (a : Int) else 0) ∧
        (midnight ts + 86400 * n ≤ x ∧ now < midnight ts + 86400 * n ∧ op ≠ .flex → totalOn p' x = totalOn p x -
          b * k + stakeWeight (b + a) k' (midnight now + 86400 * n') x +
          if d.isSome = true then (a : Int) else 0)) ∧
      (HasRoom caps.mining (laterThan m.diffs (midnight now)) (midnight now + 86400 * n') → ∀ x, midnight now ≤ x →
        weightOn m' x = weightOn m x - stakeWeight b k (midnight ts + 86400 * n) x +
          stakeWeight (b + a) k' (midnight now + 86400 * n') x) ∧
      (op ≠ .flex → now < midnight ts + 86400 * n → ∃ v, (midnight ts + 86400 * n, v) ∈ m.diffs ∧ b * k - b ≤ v) ∧
      DelegateMoved now a d d' := by
  obtain ⟨m1, oe, p2, m2, p3, d3, h1, ho, h3, -, h5, h6⟩ := extend_ok (refresh_sorted hp hm) h
  obtain ⟨s1, o1, f1⟩ := refresh_same hp.history hm h1
  obtain ⟨r1, r2, r3⟩ := refresh_weight hp.history hm h1
  have key : Quiet now p p2 ∧ MiningOk m2 ∧ p2.diffs = p.diffs := by
    rcases h3 with ⟨-, -, -, ⟨old, g1, -, rfl⟩, -, -, rfl⟩ | ⟨-, -, -, rfl, rfl⟩
    · exact ⟨Quiet.mk'' hp, ⟨SMap.put_sorted o1.1 _ _, put_aligned o1.2 g1⟩, rfl⟩
    · exact ⟨Quiet.mk'' hp, ⟨o1.1, o1.2⟩, rfl⟩
  obtain ⟨q2, o2, e2⟩ := key
  obtain ⟨q3, d3'⟩ := withSub_same q2.ok hd h5
  obtain ⟨t3, v3⟩ := withSub_effect q2.ok hd h5
  obtain ⟨k', n', g1, -, g2, g3, g4⟩ := deposit_effect q3.ok o2 d3'.ok h6
  have hsome : d3.isSome = d.isSome := by
    cases d <;> cases d3 <;> simp_all [SameDelegate]
  have e3 : p3.diffs = p.diffs := by
    rw [← e2]
    cases d with
    | none => rw [withDelegate_none] at h5; rw [h5.1]
    | some y =>
      rw [withDelegate_some] at h5
      obtain ⟨y', h5, -⟩ := h5
      rw [delegateSub_ok] at h5
      rw [h5.2.2.2]
  have hbod := bod_eq_midnight now
  obtain ⟨k, n, hk, hcase⟩ : ∃ k n, terms op = some (k, n) ∧
      (op = .flex ∧ oe = 0 ∨ op ≠ .flex ∧ oe = midnight ts + 86400 * n ∧ k = op.multiplier) := by
    rcases ho with ⟨rfl, rfl⟩ | ⟨hne, ho⟩
    · exact ⟨1, 5, rfl, Or.inl ⟨rfl, rfl⟩⟩
    · obtain ⟨n, x1, x2, _⟩ := terms_ok ho
      exact ⟨_, n, x1, Or.inr ⟨hne, x2, rfl⟩⟩
  have hmid : ∀ t, midnight t % 86400 = 0 := by intro t; unfold midnight; omega
  have hmn : midnight now ≤ now ∧ now < midnight now + 86400 := by unfold midnight; omega
  refine ⟨k, n, k', n', hk, g1, fun hr x hx => ?_, fun hr x hx => ?_, ?_, ?_⟩
  · rw [← e3] at hr
    have t4 := g2 hr x
    rw [t3 x, hsome] at t4
    have t5 : (midnight ts + 86400 * n ≤ x ∧ now < midnight ts + 86400 * n ∧ op ≠ .flex →
        totalOn p2 x = totalOn p x - (b * k : Nat)) ∧ (x < midnight ts + 86400 * n ∨ midnight ts + 86400 * n ≤ now ∨
        op = .flex → totalOn p2 x = totalOn p x - stakeWeight b k (midnight ts + 86400 * n) x) := by
      rcases hcase with ⟨rfl, rfl⟩ | ⟨hne, rfl, rfl⟩
      · simp only [terms, Option.some.injEq, Prod.mk.injEq] at hk
        obtain ⟨rfl, rfl⟩ := hk
        rcases h3 with ⟨c1, -⟩ | ⟨-, c1, c2, rfl, rfl⟩
        · omega
        · rw [stakeWeight_one]
          simp only [totalOn]
          refine ⟨by simp, fun _ => by omega⟩
      · rcases h3 with ⟨c1, c2, c3, ⟨old, c4, c5, rfl⟩, c6, c7, rfl⟩ | ⟨c1, c2, c3, rfl, rfl⟩
        · simp only [totalOn, stakeWeight]
          refine ⟨fun _ => by omega, fun hh => ?_⟩
          have hlt : x < midnight ts + 86400 * n := by
            rcases hh with hh | hh | hh
            · exact hh
            · omega
            · exact absurd hh hne
          rw [if_pos hlt]
          have e4 : ((p.totalShare - b * op.multiplier : Nat) : Int) = p.totalShare - ((b * op.multiplier : Nat) : Int) := by omega
          rw [e4]
          push_cast
          omega
        · simp only [totalOn, stakeWeight]
          refine ⟨fun _ => by omega, fun hh => ?_⟩
          rw [if_neg (by have := hmid now; have := hmid ts; omega)]
          omega
    constructor
    · intro hh
      rw [t4, t5.2 hh]
      by_cases hd' : d.isSome = true
      · rw [if_pos hd', if_pos hd', if_pos hd']; push_cast; omega
      · rw [if_neg hd', if_neg hd', if_neg hd']; omega
    · intro hh
      rw [t4, t5.1 hh]
      push_cast
      by_cases hd' : d.isSome = true
      · rw [if_pos hd', if_pos hd', if_pos hd']; omega
      · rw [if_neg hd', if_neg hd', if_neg hd']; omega
  · have hr' : HasRoom caps.mining (laterThan m2.diffs (midnight now)) (midnight now + 86400 * n') := by
      rw [hasRoom_iff] at hr ⊢
      rw [laterThan_eq, ← hbod] at hr ⊢
      rw [← r2] at hr
      rcases h3 with ⟨c1, c2, c3, ⟨old, c4, c5, rfl⟩, c6, c7, rfl⟩ | ⟨c1, c2, c3, rfl, rfl⟩
      · simp only
        have hall : ∀ e ∈ SMap.put m1.diffs oe (old - (b * op.multiplier - b)), bod now < e.1 := by
          intro e he
          rcases SMap.mem_put he with he | he
          · rw [he]; have := SMap.get_some_mem c4; rw [r2] at this; exact (mem_after.mp this).2
          · rw [r2] at he; exact (mem_after.mp he).2
        rw [after_self _ hall]
        unfold Room at hr ⊢
        rw [SMap.contains_iff] at hr ⊢
        rw [← SMap.set_eq_put o1.1 c4]
        have hkeys := set_keys m1.diffs oe (old - (b * op.multiplier - b))
        have hlen := congrArg List.length hkeys
        simp only [List.length_map] at hlen
        rw [hlen]
        rcases hr with ⟨y, hy, hy2⟩ | hr
        · left
          have : y.1 ∈ (SMap.set m1.diffs oe (old - (b * op.multiplier - b))).map (·.1) := by
            rw [hkeys]; exact List.mem_map_of_mem hy
          obtain ⟨z, hz, hz2⟩ := List.mem_map.mp this
          exact ⟨z, hz, by rw [hz2, hy2]⟩
        · exact Or.inr hr
      · simp only
        rw [r2, after_after _ (Nat.le_refl _), ← r2]
        exact hr
    rw [g3 hr' x hx]
    rw [← hbod] at hx
    have hx' : midnight now ≤ x := by rw [← hbod]; exact hx
    rw [← r1 x hx]
    congr 1
    rcases hcase with ⟨rfl, rfl⟩ | ⟨hne, rfl, rfl⟩
    · simp only [terms, Option.some.injEq, Prod.mk.injEq] at hk
      obtain ⟨rfl, rfl⟩ := hk
      rcases h3 with ⟨c1, -⟩ | ⟨-, c1, c2, rfl, rfl⟩
      · omega
      · rw [stakeWeight_one]
        simp only [weightOn]; omega
    · rcases h3 with ⟨c1, c2, c3, ⟨old, c4, c5, rfl⟩, c6, c7, rfl⟩ | ⟨c1, c2, c3, rfl, rfl⟩
      · simp only [weightOn]
        rw [put_weight o1.sorted c4 c3 c5 c6 x]
        unfold stakeWeight
        push_cast
        rfl
      · simp only [weightOn, stakeWeight]
        rw [if_neg (by have := hmid now; have := hmid ts; omega)]
        omega
  · intro hne hlt
    rcases hcase with ⟨rfl, -⟩ | ⟨-, rfl, rfl⟩
    · exact absurd rfl hne
    · rcases h3 with ⟨c1, c2, c3, ⟨old, c4, c5, rfl⟩, c6, c7, rfl⟩ | ⟨c1, c2, c3, rfl, rfl⟩
      · have := SMap.get_some_mem c4
        rw [r2] at this
        exact ⟨old, (mem_after.mp this).1, c5⟩
      · exact absurd hlt c1
  · have := v3.trans g4
    rw [show (-(b : Int) + ((b + a : Nat) : Int)) = a by push_cast; omega] at this
    exact this

theorem changeDelegate_effect {now : Nat} {p p' : Pool} {m m' : Mining} {nd od nd' od' : Option Mining} {a : Nat}
    (hp : PoolOk now p) (hm : MiningOk m) (hn : ∀ x, nd = some x → MiningOk x) (ho : ∀ x, od = some x → MiningOk x)
    (h : p.changeDelegate now m nd od a = .ok (p', m', nd', od')) :
    (∀ x, totalOn p' x = totalOn p x - (if od.isSome = true then (a : Int) else 0) +
      (if nd.isSome = true then (a : Int) else 0)) ∧
    (∀ x, midnight now ≤ x → weightOn m' x = weightOn m x) ∧ DelegateMoved now (-a) od od' ∧
    DelegateMoved now a nd nd' := by
  rw [changeDelegate_ok] at h
  obtain ⟨h1, p1, h2, h3⟩ := h
  obtain ⟨q2, -⟩ := withSub_same hp ho h2
  obtain ⟨t2, d2⟩ := withSub_effect hp ho h2
  obtain ⟨t3, d3⟩ := withAdd_effect q2.ok hn h3
  obtain ⟨r1, -, -⟩ := refresh_weight hp.history hm h1
  exact ⟨fun x => by rw [t3 x, t2 x], fun x hx => r1 x (by rw [bod_eq_midnight]; exact hx), d2, d3⟩

end Verif
